import Verif.Props.Samplers
import Mathlib.Probability.Independence.InfinitePi
import Mathlib.Probability.Independence.Integration

/-!
# The law of the rejection sampler for vectors (C122)
-/

namespace Verif.Priors

open Verif Verif.Spec MeasureTheory ProbabilityTheory Set

variable {n : Nat}

/-! ## The loop on vectors of fixed length -/

/-- The components out of range. -/
noncomputable def outM (a b y : Fin n → ℝ) : List Bool := List.ofFn fun i => decide (b i < y i) || decide (y i < a i)

/-- One round: the components out of range are drawn anew. -/
noncomputable def step (m s a b : Fin n → ℝ) (z : Nat → ℝ) (r : Nat) (y : Fin n → ℝ) : Fin n → ℝ := fun i =>
  if b i < y i ∨ y i < a i then m i + s i * z (r + rank (outM a b y) i) else y i

/-- At most `k` rounds. -/
noncomputable def loop (m s a b : Fin n → ℝ) (z : Nat → ℝ) : Nat → Nat → (Fin n → ℝ) → Option (Fin n → ℝ)
  | 0, _, y => if ∃ i, b i < y i ∨ y i < a i then none else some y
  | k + 1, r, y => if ∃ i, b i < y i ∨ y i < a i then loop m s a b z k (r + (outM a b y).count true) (step m s a b z r y) else some y

theorem outM_get (a b y : Fin n → ℝ) (i : Fin n) : (outM a b y)[(i : Nat)]? = some true ↔ b i < y i ∨ y i < a i := by
  unfold outM
  rw [List.getElem?_ofFn]
  simp

theorem outM_any (a b y : Fin n → ℝ) : (outM a b y).any id = true ↔ ∃ i, b i < y i ∨ y i < a i := by
  unfold outM
  simp [List.any_eq_true, List.mem_ofFn]

theorem pick_mem (xs : List ℝ) : ∀ (mask : List Bool) x, x ∈ pick xs mask → x ∈ xs := by
  induction xs with
  | nil => intro mask x h; cases mask <;> simp [pick] at h
  | cons y ys ih =>
    intro mask x h
    cases mask with
    | nil => simp [pick] at h
    | cons c cs =>
      cases c with
      | false => exact List.mem_cons_of_mem _ (ih cs x (by simpa [pick] using h))
      | true =>
        rcases List.mem_cons.1 (show x ∈ y :: pick ys cs by simpa [pick] using h) with rfl | h
        · exact List.mem_cons_self
        · exact List.mem_cons_of_mem _ (ih cs x h)

/-- Both arguments are numbers or both are vectors. -/
def SameShape : Arr ℝ → Arr ℝ → Prop
  | .num _, .num _ => True
  | .vec _, .vec _ => True
  | _, _ => False

theorem drawVec_ok (z : Nat → ℝ) (r : Nat) (mu sigma : Arr ℝ) (k : Nat) (hm : Fits k mu) (hs : Fits k sigma)
    (hpos : ∀ x ∈ sigma.entries, 0 ≤ x) : ∃ new, drawVec z r mu sigma k = .ok new := by
  have fits : ∀ a : Arr ℝ, Fits k a → drawFits k a = true := by
    intro a ha
    cases a with
    | num x => rfl
    | vec xs =>
      have : xs.length = k := ha
      simp [drawFits, this]
  unfold drawVec
  rw [if_neg (by simp [fits mu hm, fits sigma hs]), if_neg]
  · exact ⟨_, rfl⟩
  · intro h
    obtain ⟨x, hx, hlt⟩ := List.any_eq_true.1 h
    exact absurd (of_decide_eq_true hlt) (hpos x hx).not_gt

theorem redraw_ok (z : Nat → ℝ) (r : Nat) (mu sigma : Arr ℝ) (mask : List Bool) (hsh : SameShape mu sigma)
    (hm : Fits mask.length mu) (hs : Fits mask.length sigma) (hpos : ∀ x ∈ sigma.entries, 0 ≤ x) :
    ∃ new, redraw z r mu sigma mask = .ok new := by
  cases mu with
  | num x =>
    cases sigma with
    | num y => exact drawVec_ok z r _ _ _ trivial trivial hpos
    | vec ys => exact absurd hsh id
  | vec xs =>
    cases sigma with
    | num y => exact absurd hsh id
    | vec ys =>
      have hx : xs.length = mask.length := hm
      have hy : ys.length = mask.length := hs
      show ∃ new, ((pickArr mask (.vec xs)).bind fun m => (pickArr mask (.vec ys)).bind fun s =>
        drawVec z r (.vec m) (.vec s) (mask.count true)) = .ok new
      simp only [pickArr, if_pos hx, if_pos hy, Except.bind]
      exact drawVec_ok z r _ _ _ (pick_length xs mask hx) (pick_length ys mask hy) fun x h => hpos x (pick_mem ys mask x h)

/-- The loop of the sampler is this loop. -/
theorem loopVec_eq (z : Nat → ℝ) (mu sigma lo hi : Arr ℝ) (hsh : SameShape mu sigma) (hm : Fits n mu) (hs : Fits n sigma)
    (hlo : Fits n lo) (hhi : Fits n hi) (hpos : ∀ x ∈ sigma.entries, 0 ≤ x) (k : Nat) : ∀ (r : Nat) (y : Fin n → ℝ),
    loopVec z mu sigma lo hi k r (List.ofFn y) =
      .ok ((loop (fun i => mu.entry i) (fun i => sigma.entry i) (fun i => lo.entry i) (fun i => hi.entry i) z k r y).map List.ofFn) := by
  have hmask : ∀ y : Fin n → ℝ, outMask (List.ofFn y) lo hi = .ok (outM (fun i => lo.entry i) (fun i => hi.entry i) y) := by
    intro y
    obtain ⟨m, e, l, g⟩ := outMask_spec (List.ofFn y) lo hi (by simpa using hlo) (by simpa using hhi)
    rw [e]
    congr 1
    apply List.ext_getElem?
    intro i
    by_cases hi' : i < n
    · rw [g i (by simpa using hi'), outM, List.getElem?_ofFn]
      simp [hi']
    · rw [List.getElem?_eq_none (by rw [l]; simpa using hi'), List.getElem?_eq_none (by simpa [outM] using hi')]
  induction k with
  | zero =>
    intro r y
    rw [loopVec, hmask]
    show (if (outM _ _ y).any id = true then _ else _) = _
    unfold loop
    by_cases h : ∃ i : Fin n, hi.entry i < y i ∨ y i < lo.entry i
    · rw [if_pos ((outM_any _ _ y).2 h), if_pos h]
      rfl
    · rw [if_neg (fun h' => h ((outM_any _ _ y).1 h')), if_neg h]
      rfl
  | succ k ih =>
    intro r y
    rw [loopVec, hmask]
    show (if (outM _ _ y).any id = true then _ else _) = _
    unfold loop
    by_cases h : ∃ i : Fin n, hi.entry i < y i ∨ y i < lo.entry i
    · rw [if_pos ((outM_any _ _ y).2 h), if_pos h]
      have hl : (outM (fun i : Fin n => lo.entry i) (fun i => hi.entry i) y).length = n := by simp [outM]
      show (if (outM _ _ y).length = (List.ofFn y).length then _ else _) = _
      rw [if_pos (by simp [outM])]
      obtain ⟨new, hnew⟩ := redraw_ok z r mu sigma (outM (fun i : Fin n => lo.entry i) (fun i => hi.entry i) y) hsh (by rw [hl]; exact hm)
        (by rw [hl]; exact hs) hpos
      obtain ⟨g1, g2⟩ := redraw_spec z r mu sigma _ new hnew (by rw [hl]; exact hm) (by rw [hl]; exact hs)
      rw [hnew]
      show loopVec z mu sigma lo hi k _ (put (List.ofFn y) _ new) = _
      rw [← ih]
      congr 1
      apply List.ext_getElem?
      intro i
      by_cases hi' : i < n
      · rw [put_get _ _ _ (by simp [outM]) g1 i (by simpa using hi')]
        have hg := outM_get (fun i : Fin n => lo.entry i) (fun i => hi.entry i) y ⟨i, hi'⟩
        conv_rhs => rw [List.getElem?_ofFn, dif_pos hi']
        by_cases ho : hi.entry i < y ⟨i, hi'⟩ ∨ y ⟨i, hi'⟩ < lo.entry i
        · rw [if_pos (hg.2 ho), g2 i (hg.2 ho)]
          simp only [step]
          rw [if_pos ho]
        · rw [if_neg (fun h' => ho (hg.1 h')), List.getElem?_ofFn, dif_pos hi']
          simp only [step]
          rw [if_neg ho]
      · rw [List.getElem?_eq_none (by rw [put_length]; simpa using hi'), List.getElem?_eq_none (by simpa using hi')]
    · rw [if_neg (fun h' => h ((outM_any _ _ y).1 h')), if_neg h]
      rfl

/-- The sampler on the stream. -/
theorem sampler_eq (z : Nat → ℝ) (mu sigma lo hi : Arr ℝ) (size : Option Nat) (fuel : Nat)
    (hn : size = some n ∨ (size = none ∧ (IsVec mu ∨ IsVec sigma))) (hsh : SameShape mu sigma) (hm : Fits n mu) (hs : Fits n sigma)
    (hlo : Fits n lo) (hhi : Fits n hi) (hpos : ∀ x ∈ sigma.entries, 0 ≤ x) :
    truncNormalSampler z mu sigma lo hi size fuel =
      .ok ((loop (fun i : Fin n => mu.entry i) (fun i => sigma.entry i) (fun i => lo.entry i) (fun i => hi.entry i) z fuel n
        fun i => mu.entry i + sigma.entry i * z i).map fun x => .vec (List.ofFn x)) := by
  have hrun : truncNormalSampler z mu sigma lo hi size fuel =
      (drawVec z 0 mu sigma n).bind fun xs => (loopVec z mu sigma lo hi fuel n xs).bind fun ys =>
        .ok (ys.map Arr.vec) := by
    rcases hn with hn | ⟨hn, hd⟩
    · subst hn; rfl
    · subst hn
      unfold truncNormalSampler
      rw [drawLen_of hm hs hd]; rfl
  obtain ⟨xs, hx⟩ := drawVec_ok z 0 mu sigma n hm hs hpos
  obtain ⟨g1, g2⟩ := drawVec_spec z 0 mu sigma n xs hx hm hs
  have hxs : xs = List.ofFn fun i : Fin n => mu.entry i + sigma.entry i * z i := by
    apply List.ext_getElem?
    intro i
    by_cases hi' : i < n
    · rw [g2 i hi', List.getElem?_ofFn, dif_pos hi', Nat.zero_add]
    · rw [List.getElem?_eq_none (by omega), List.getElem?_eq_none (by simpa using hi')]
  rw [hrun, hx, hxs]
  show (loopVec z mu sigma lo hi fuel n _).bind _ = _
  rw [loopVec_eq z mu sigma lo hi hsh hm hs hlo hhi hpos]
  show Except.ok _ = _
  rw [Option.map_map]
  rfl

/-- The first pass is a round with all components out of range. -/
theorem loop_first (m s a b : Fin n → ℝ) (hn : 0 < n) (z : Nat → ℝ) (k : Nat) :
    loop m s a b z (k + 1) 0 (fun i => b i + 1) = loop m s a b z k n fun i => m i + s i * z i := by
  have hall : outM a b (fun i => b i + 1) = List.replicate n true := by
    unfold outM
    rw [← List.ofFn_const]
    congr 1
    funext i
    simp
  rw [loop, if_pos ⟨⟨0, hn⟩, .inl (by simp)⟩, hall]
  congr 1
  · simp
  · funext i
    simp only [step]
    rw [if_pos (.inl (by simp)), hall, rank_all _ (by simp) i (by simp), Nat.zero_add]

theorem loop_stable (m s a b : Fin n → ℝ) (z : Nat → ℝ) (k : Nat) : ∀ (k' r : Nat) (y x : Fin n → ℝ), k ≤ k' →
    loop m s a b z k r y = some x → loop m s a b z k' r y = some x := by
  induction k with
  | zero =>
    intro k' r y x _ h
    unfold loop at h
    split at h
    · cases h
    · rename_i hno
      cases k' with
      | zero => rw [loop, if_neg hno, h]
      | succ k' => rw [loop, if_neg hno, h]
  | succ k ih =>
    intro k' r y x hk h
    obtain ⟨k', rfl⟩ : ∃ j, k' = j + 1 := ⟨k' - 1, by omega⟩
    rw [loop] at h ⊢
    split at h
    · rename_i ho
      rw [if_pos ho]
      exact ih k' _ _ x (by omega) h
    · rename_i ho
      rw [if_neg ho, h]

theorem loop_shift (m s a b : Fin n → ℝ) (z : Nat → ℝ) (c k : Nat) : ∀ (r : Nat) (y : Fin n → ℝ),
    loop m s a b z k (c + r) y = loop m s a b (fun i => z (c + i)) k r y := by
  induction k with
  | zero => intro r y; rfl
  | succ k ih =>
    intro r y
    rw [loop, loop]
    have e : step m s a b z (c + r) y = step m s a b (fun i => z (c + i)) r y := by
      funext i
      simp only [step, Nat.add_assoc]
    rw [Nat.add_assoc, ih, e]

/-! ## Splitting the stream -/

/-- The first `c` numbers of one stream, then another stream. -/
def glue (c : Nat) (p : (Nat → ℝ) × (Nat → ℝ)) : Nat → ℝ := fun i => if i < c then p.1 i else p.2 (i - c)

theorem glue_measurable (c : Nat) : Measurable (glue c) := by
  refine measurable_pi_lambda _ fun i => ?_
  unfold glue
  by_cases h : i < c
  · simp only [if_pos h]
    fun_prop
  · simp only [if_neg h]
    fun_prop

instance : IsProbabilityMeasure stream := by
  unfold stream
  infer_instance

theorem stream_glue (c : Nat) : (stream.prod stream).map (glue c) = stream := by
  classical
  refine Measure.eq_infinitePi _ fun S t ht => ?_
  have hbox : MeasurableSet (Set.pi (S : Set Nat) t) := MeasurableSet.pi S.countable_toSet fun i _ => ht i
  rw [Measure.map_apply (glue_measurable c) hbox]
  have e : glue c ⁻¹' Set.pi (S : Set Nat) t = Set.pi ((S.filter fun i => i < c : Finset Nat) : Set Nat) t ×ˢ
      Set.pi (((S.filter fun i => ¬i < c).image fun i => i - c : Finset Nat) : Set Nat) fun j => t (j + c) := by
    ext ⟨z, z'⟩
    simp only [mem_preimage, Set.mem_pi, Finset.mem_coe, mem_prod, Finset.mem_filter, Finset.mem_image, and_imp, forall_exists_index]
    constructor
    · intro h
      refine ⟨fun i hi hc => ?_, ?_⟩
      · have := h i hi
        rwa [glue, if_pos hc] at this
      · rintro j i hi hc rfl
        have := h i hi
        rw [glue, if_neg hc] at this
        rwa [show i - c + c = i by omega]
    · rintro ⟨h1, h2⟩ i hi
      rw [glue]
      by_cases hc : i < c
      · rw [if_pos hc]
        exact h1 i hi hc
      · rw [if_neg hc]
        have := h2 (i - c) i hi hc rfl
        rwa [show i - c + c = i by omega] at this
  rw [e, Measure.prod_prod]
  unfold stream
  rw [Measure.infinitePi_pi _ fun i _ => ht i, Measure.infinitePi_pi _ fun i _ => ht (i + c), Finset.prod_image]
  · rw [← Finset.prod_filter_mul_prod_filter_not S fun i => i < c]
    congr 1
    refine Finset.prod_congr rfl fun i hi => ?_
    rw [show i - c + c = i from by have := (Finset.mem_filter.1 hi).2; omega]
  · intro i hi j hj hij
    have h1 := (Finset.mem_filter.1 hi).2
    have h2 := (Finset.mem_filter.1 hj).2
    simp only at hij
    omega

/-! ## Measurability -/

theorem out_measurable (a b : Fin n → ℝ) (i : Fin n) : MeasurableSet {y : Fin n → ℝ | b i < y i ∨ y i < a i} :=
  (measurableSet_lt measurable_const (measurable_pi_apply i)).union (measurableSet_lt (measurable_pi_apply i) measurable_const)

theorem outM_measurable (a b : Fin n → ℝ) : Measurable[_, ⊤] (outM a b) := by
  have hd : ∀ i : Fin n, Measurable fun y : Fin n → ℝ => decide (b i < y i) || decide (y i < a i) := by
    intro i
    refine measurable_to_bool ?_
    convert out_measurable a b i using 1
    ext y
    simp
  have h1 : Measurable fun (y : Fin n → ℝ) (i : Fin n) => decide (b i < y i) || decide (y i < a i) := measurable_pi_lambda _ hd
  have h2 : Measurable[_, ⊤] fun v : Fin n → Bool => List.ofFn v := fun S _ => (Set.toFinite _).measurableSet
  exact h2.comp h1

theorem step_measurable (m s a b : Fin n → ℝ) (r : Nat) :
    Measurable fun p : (Nat → ℝ) × (Fin n → ℝ) => step m s a b p.1 r p.2 := by
  refine measurable_pi_lambda _ fun i => ?_
  unfold step
  refine Measurable.ite (measurable_snd (out_measurable a b i)) ?_ (by fun_prop)
  refine Measurable.const_add (Measurable.const_mul ?_ _) _
  have hr : Measurable fun p : (Nat → ℝ) × (Fin n → ℝ) => r + rank (outM a b p.2) i := by
    have h0 : Measurable[⊤, _] fun l : List Bool => r + rank l i := measurable_from_top
    exact h0.comp ((outM_measurable a b).comp measurable_snd)
  have he : Measurable fun q : (Nat → ℝ) × Nat => q.1 q.2 := measurable_from_prod_countable_left fun j => measurable_pi_apply j
  exact he.comp (measurable_fst.prodMk hr)

theorem good_measurable (m s a b : Fin n → ℝ) (A : Fin n → Set ℝ) (hA : ∀ i, MeasurableSet (A i)) (k : Nat) : ∀ r,
    MeasurableSet {p : (Nat → ℝ) × (Fin n → ℝ) | ∃ x, loop m s a b p.1 k r p.2 = some x ∧ ∀ i, x i ∈ A i} := by
  have hex : MeasurableSet {p : (Nat → ℝ) × (Fin n → ℝ) | ∃ i, b i < p.2 i ∨ p.2 i < a i} := by
    rw [setOf_exists]
    exact MeasurableSet.iUnion fun i => measurable_snd (out_measurable a b i)
  have hin : MeasurableSet {p : (Nat → ℝ) × (Fin n → ℝ) | ∀ i, p.2 i ∈ A i} := by
    rw [setOf_forall]
    exact MeasurableSet.iInter fun i => (measurable_pi_apply i |>.comp measurable_snd) (hA i)
  induction k with
  | zero =>
    intro r
    convert hex.compl.inter hin using 1
    ext p
    simp only [loop, mem_ofPred_eq, mem_inter_iff, mem_compl_iff]
    by_cases h : ∃ i, b i < p.2 i ∨ p.2 i < a i
    · simp [h]
    · rw [if_neg h]
      simp only [Option.some.injEq, exists_eq_left', h, not_false_eq_true, true_and]
  | succ k ih =>
    intro r
    have hc : ∀ c : Nat, MeasurableSet {p : (Nat → ℝ) × (Fin n → ℝ) | (outM a b p.2).count true = c} := by
      intro c
      have h0 : Measurable[⊤, _] fun l : List Bool => l.count true := measurable_from_top
      exact (h0.comp ((outM_measurable a b).comp measurable_snd)) (measurableSet_singleton c)
    have hst : ∀ c : Nat, MeasurableSet {p : (Nat → ℝ) × (Fin n → ℝ) |
        ∃ x, loop m s a b p.1 k (r + c) (step m s a b p.1 r p.2) = some x ∧ ∀ i, x i ∈ A i} := fun c =>
      (measurable_fst.prodMk (step_measurable m s a b r)) (ih (r + c))
    convert (hex.compl.inter hin).union (hex.inter (MeasurableSet.iUnion fun c : Nat => (hc c).inter (hst c))) using 1
    ext p
    simp only [loop, mem_ofPred_eq, mem_inter_iff, mem_compl_iff, mem_union, mem_iUnion]
    by_cases h : ∃ i, b i < p.2 i ∨ p.2 i < a i
    · rw [if_pos h]
      simp only [h, not_true_eq_false, false_and, true_and, false_or]
      exact ⟨fun h => ⟨_, rfl, h⟩, fun ⟨c, e, h⟩ => e ▸ h⟩
    · rw [if_neg h]
      simp only [Option.some.injEq, exists_eq_left', h, not_false_eq_true, true_and, false_and, or_false]

/-! ## The law -/

/-- The probability that a component that is out of range ends in `A` within `k` rounds. -/
noncomputable def within (m s a b : ℝ) (A : Set ℝ) (k : Nat) : ENNReal :=
  law m s (Icc a b ∩ A) * ∑ j ∈ Finset.range k, law m s (Icc a b)ᶜ ^ j

open Classical in
/-- The same for a component with the value `x`. -/
noncomputable def from_ (m s a b : ℝ) (A : Set ℝ) (k : Nat) (x : ℝ) : ENNReal :=
  if b < x ∨ x < a then within m s a b A k else if x ∈ A then 1 else 0

theorem from_measurable (m s a b : ℝ) (A : Set ℝ) (hA : MeasurableSet A) (k : Nat) : Measurable (from_ m s a b A k) := by
  unfold from_
  refine Measurable.ite ?_ measurable_const (Measurable.ite hA measurable_const measurable_const)
  exact measurableSet_Ioi.union measurableSet_Iio

theorem from_integral (m s a b : ℝ) (A : Set ℝ) (hA : MeasurableSet A) (k : Nat) :
    ∫⁻ w, from_ m s a b A k (m + s * w) ∂gaussianReal 0 1 = within m s a b A (k + 1) := by
  have hf : Measurable fun z : ℝ => m + s * z := by fun_prop
  rw [← lintegral_map (from_measurable m s a b A hA k) hf]
  show ∫⁻ x, from_ m s a b A k x ∂law m s = _
  have e : from_ m s a b A k = fun x => (Icc a b)ᶜ.indicator (fun _ => within m s a b A k) x + (Icc a b ∩ A).indicator (fun _ => 1) x := by
    funext x
    unfold from_
    by_cases h : b < x ∨ x < a
    · have hx : x ∉ Icc a b := by
        rintro ⟨h1, h2⟩
        rcases h with h | h
        · exact absurd h2 h.not_ge
        · exact absurd h1 h.not_ge
      rw [if_pos h, indicator_of_mem (show x ∈ (Icc a b)ᶜ from hx), indicator_of_notMem (fun h' => hx h'.1), add_zero]
    · push Not at h
      have hx : x ∈ Icc a b := ⟨h.2, h.1⟩
      rw [if_neg (by push Not; exact h), indicator_of_notMem (show x ∉ (Icc a b)ᶜ from fun h' => h' hx), zero_add]
      by_cases hxA : x ∈ A
      · rw [if_pos hxA, indicator_of_mem (show x ∈ Icc a b ∩ A from ⟨hx, hxA⟩)]
      · rw [if_neg hxA, indicator_of_notMem fun h' => hxA h'.2]
  rw [e, lintegral_add_left (measurable_const.indicator measurableSet_Icc.compl), lintegral_indicator_const measurableSet_Icc.compl,
    lintegral_indicator_const (measurableSet_Icc.inter hA), one_mul]
  unfold within
  rw [Finset.sum_range_succ', pow_zero, mul_add, mul_one, mul_assoc, Finset.sum_mul]
  simp only [pow_succ]

/-- The components end independently of each other. -/
theorem loop_law (m s a b : Fin n → ℝ) (A : Fin n → Set ℝ) (hA : ∀ i, MeasurableSet (A i)) (k : Nat) : ∀ y : Fin n → ℝ,
    stream {z | ∃ x, loop m s a b z k 0 y = some x ∧ ∀ i, x i ∈ A i} = ∏ i, from_ (m i) (s i) (a i) (b i) (A i) k (y i) := by
  have done : ∀ (k : Nat) (y : Fin n → ℝ), ¬(∃ i, b i < y i ∨ y i < a i) →
      stream {z | ∃ x, (some y : Option (Fin n → ℝ)) = some x ∧ ∀ i, x i ∈ A i} = ∏ i, from_ (m i) (s i) (a i) (b i) (A i) k (y i) := by
    intro k y h
    have hnot : ∀ i, ¬(b i < y i ∨ y i < a i) := fun i hi => h ⟨i, hi⟩
    by_cases hy : ∀ i, y i ∈ A i
    · have : {z : Nat → ℝ | ∃ x, (some y : Option (Fin n → ℝ)) = some x ∧ ∀ i, x i ∈ A i} = univ := by
        ext z
        simp [hy]
      rw [this, measure_univ, Finset.prod_eq_one]
      intro i _
      rw [from_, if_neg (hnot i), if_pos (hy i)]
    · have : {z : Nat → ℝ | ∃ x, (some y : Option (Fin n → ℝ)) = some x ∧ ∀ i, x i ∈ A i} = ∅ := by
        ext z
        simp only [mem_ofPred_eq, mem_empty_iff_false, iff_false]
        rintro ⟨x, hx, hx'⟩
        exact hy (Option.some.inj hx ▸ hx')
      push Not at hy
      obtain ⟨i, hi⟩ := hy
      rw [this, measure_empty]
      symm
      refine Finset.prod_eq_zero (Finset.mem_univ i) ?_
      rw [from_, if_neg (hnot i), if_neg hi]
  induction k with
  | zero =>
    intro y
    by_cases h : ∃ i, b i < y i ∨ y i < a i
    · simp only [loop, if_pos h]
      obtain ⟨i, hi⟩ := h
      rw [Finset.prod_eq_zero (Finset.mem_univ i) (by rw [from_, if_pos hi, within, Finset.range_zero, Finset.sum_empty, mul_zero])]
      have : {z : Nat → ℝ | ∃ x, (none : Option (Fin n → ℝ)) = some x ∧ ∀ i, x i ∈ A i} = ∅ := by
        ext z
        simp
      rw [this, measure_empty]
    · simp only [loop, if_neg h]
      exact done 0 y h
  | succ k ih =>
    intro y
    by_cases h : ∃ i, b i < y i ∨ y i < a i
    · simp only [loop, if_pos h, Nat.zero_add]
      let c := (outM a b y).count true
      have hmeas : MeasurableSet {z : Nat → ℝ | ∃ x, loop m s a b z k c (step m s a b z 0 y) = some x ∧ ∀ i, x i ∈ A i} :=
        (measurable_id.prodMk ((step_measurable m s a b 0).comp (measurable_id.prodMk measurable_const)))
          (good_measurable m s a b A hA k c)
      show stream {z : Nat → ℝ | ∃ x, loop m s a b z k c (step m s a b z 0 y) = some x ∧ ∀ i, x i ∈ A i} = _
      rw [← stream_glue c, Measure.map_apply (glue_measurable c) hmeas]
      have hrank : ∀ i : Fin n, (b i < y i ∨ y i < a i) → rank (outM a b y) i < c := fun i hi =>
        rank_lt _ i ((outM_get a b y i).2 hi)
      have e : glue c ⁻¹' {z : Nat → ℝ | ∃ x, loop m s a b z k c (step m s a b z 0 y) = some x ∧ ∀ i, x i ∈ A i} =
          {p : (Nat → ℝ) × (Nat → ℝ) | ∃ x, loop m s a b p.2 k 0 (step m s a b p.1 0 y) = some x ∧ ∀ i, x i ∈ A i} := by
        ext p
        have e1 : step m s a b (glue c p) 0 y = step m s a b p.1 0 y := by
          funext i
          simp only [step, Nat.zero_add]
          split
          · rename_i hi
            rw [glue, if_pos (hrank i hi)]
          · rfl
        have e2 : (fun i => glue c p (c + i)) = p.2 := by
          funext i
          rw [glue, if_neg (by omega), Nat.add_sub_cancel_left]
        have e3 := loop_shift m s a b (glue c p) c k 0 (step m s a b p.1 0 y)
        rw [Nat.add_zero, e2] at e3
        simp only [mem_preimage, mem_ofPred_eq, e1, e3]
      have hm2 : MeasurableSet {p : (Nat → ℝ) × (Nat → ℝ) |
          ∃ x, loop m s a b p.2 k 0 (step m s a b p.1 0 y) = some x ∧ ∀ i, x i ∈ A i} :=
        (measurable_snd.prodMk ((step_measurable m s a b 0).comp (measurable_fst.prodMk measurable_const)))
          (good_measurable m s a b A hA k 0)
      rw [e, Measure.prod_apply hm2]
      have e4 : ∀ z0 : Nat → ℝ, stream (Prod.mk z0 ⁻¹' {p : (Nat → ℝ) × (Nat → ℝ) |
          ∃ x, loop m s a b p.2 k 0 (step m s a b p.1 0 y) = some x ∧ ∀ i, x i ∈ A i}) =
          ∏ i, from_ (m i) (s i) (a i) (b i) (A i) k (step m s a b z0 0 y i) := fun z0 => by
        rw [← ih (step m s a b z0 0 y)]
        congr 1
      rw [lintegral_congr e4]
      let ρ : Fin n → Nat := fun i => if b i < y i ∨ y i < a i then rank (outM a b y) i else c + i
      have hρ : Function.Injective ρ := by
        intro i j hij
        have hij : (if b i < y i ∨ y i < a i then rank (outM a b y) i else c + i) =
          if b j < y j ∨ y j < a j then rank (outM a b y) j else c + j := hij
        split at hij <;> split at hij
        · rename_i hi hj
          exact Fin.ext (rank_inj _ i j ((outM_get a b y i).2 hi) ((outM_get a b y j).2 hj) hij)
        · rename_i hi hj
          have := hrank i hi
          omega
        · rename_i hi hj
          have := hrank j hj
          omega
        · exact Fin.ext (by omega)
      let ψ : Fin n → ℝ → ENNReal := fun i w =>
        from_ (m i) (s i) (a i) (b i) (A i) k (if b i < y i ∨ y i < a i then m i + s i * w else y i)
      have hψ : ∀ i, Measurable (ψ i) := by
        intro i
        refine (from_measurable (m i) (s i) (a i) (b i) (A i) (hA i) k).comp ?_
        split <;> fun_prop
      have e5 : ∀ z0 : Nat → ℝ, ∏ i, from_ (m i) (s i) (a i) (b i) (A i) k (step m s a b z0 0 y i) = ∏ i, ψ i (z0 (ρ i)) := by
        intro z0
        refine Finset.prod_congr rfl fun i _ => ?_
        show _ = from_ (m i) (s i) (a i) (b i) (A i) k (if b i < y i ∨ y i < a i then m i + s i * z0 (ρ i) else y i)
        congr 1
        simp only [step, Nat.zero_add]
        split
        · rename_i hi
          rw [show ρ i = rank (outM a b y) i from if_pos hi]
        · rfl
      have hind : iIndepFun (fun (i : Fin n) (z0 : Nat → ℝ) => z0 (ρ i)) stream :=
        (iIndepFun_infinitePi (P := fun _ : Nat => gaussianReal 0 1) (X := fun _ w => w) fun _ => measurable_id).precomp hρ
      have hind' : iIndepFun (fun (i : Fin n) (z0 : Nat → ℝ) => ψ i (z0 (ρ i))) stream := hind.comp ψ hψ
      have hm' : ∀ i : Fin n, Measurable fun z0 : Nat → ℝ => ψ i (z0 (ρ i)) := fun i =>
        (hψ i).comp (measurable_pi_apply (ρ i))
      have hprod : ∫⁻ z0, ∏ i, ψ i (z0 (ρ i)) ∂stream = ∏ i, ∫⁻ z0, ψ i (z0 (ρ i)) ∂stream :=
        lintegral_prod_eq_prod_lintegral_of_indepFun Finset.univ (fun (i : Fin n) (z0 : Nat → ℝ) => ψ i (z0 (ρ i))) hind' hm'
      rw [lintegral_congr e5, hprod]
      refine Finset.prod_congr rfl fun i _ => ?_
      have hmap : stream.map (fun z0 : Nat → ℝ => z0 (ρ i)) = gaussianReal 0 1 :=
        (measurePreserving_eval_infinitePi (fun _ : Nat => gaussianReal 0 1) (ρ i)).map_eq
      rw [← lintegral_map (hψ i) (measurable_pi_apply (ρ i)), hmap]
      by_cases hi : b i < y i ∨ y i < a i
      · show ∫⁻ w, from_ (m i) (s i) (a i) (b i) (A i) k (if b i < y i ∨ y i < a i then m i + s i * w else y i) ∂_ = _
        simp only [if_pos hi]
        rw [from_integral _ _ _ _ _ (hA i)]
        rw [from_, if_pos hi]
      · show ∫⁻ w, from_ (m i) (s i) (a i) (b i) (A i) k (if b i < y i ∨ y i < a i then m i + s i * w else y i) ∂_ = _
        simp only [if_neg hi]
        rw [lintegral_const, measure_univ, mul_one, from_, from_, if_neg hi, if_neg hi]
    · simp only [loop, if_neg h]
      exact done (k + 1) y h

open Classical in
/-- The value the loop ends with, if it ends. -/
noncomputable def ended (m s a b : Fin n → ℝ) (z : Nat → ℝ) : Fin n → ℝ :=
  if h : ∃ x k, loop m s a b z k n (fun i => m i + s i * z i) = some x then h.choose else 0

/-- The loop ends within `k` rounds in the box `A`. -/
def endsIn (m s a b : Fin n → ℝ) (A : Fin n → Set ℝ) (k : Nat) : Set (Nat → ℝ) :=
  {z | ∃ x, loop m s a b z k n (fun i => m i + s i * z i) = some x ∧ ∀ i, x i ∈ A i}

theorem ended_eq {m s a b : Fin n → ℝ} {z : Nat → ℝ} {k : Nat} {x : Fin n → ℝ}
    (h : loop m s a b z k n (fun i => m i + s i * z i) = some x) : ended m s a b z = x := by
  have he : ∃ x k, loop m s a b z k n (fun i => m i + s i * z i) = some x := ⟨x, k, h⟩
  rw [ended, dif_pos he]
  obtain ⟨k', h'⟩ := he.choose_spec
  have h1 := loop_stable m s a b z k (max k k') _ _ _ (le_max_left _ _) h
  have h2 := loop_stable m s a b z k' (max k k') _ _ _ (le_max_right _ _) h'
  exact Option.some.inj (h2.symm.trans h1)

theorem endsIn_measurable (m s a b : Fin n → ℝ) (A : Fin n → Set ℝ) (hA : ∀ i, MeasurableSet (A i)) (k : Nat) :
    MeasurableSet (endsIn m s a b A k) := by
  have h : Measurable fun z : Nat → ℝ => (z, fun i : Fin n => m i + s i * z i) :=
    measurable_id.prodMk (measurable_pi_lambda _ fun i => ((measurable_pi_apply (i : Nat)).const_mul _).const_add _)
  exact h (good_measurable m s a b A hA k n)

theorem endsIn_mono (m s a b : Fin n → ℝ) (A : Fin n → Set ℝ) : Monotone (endsIn m s a b A) := by
  rintro k k' hk z ⟨x, hx, hA⟩
  exact ⟨x, loop_stable m s a b z k k' _ _ _ hk hx, hA⟩

theorem ended_preimage (m s a b : Fin n → ℝ) (A : Fin n → Set ℝ) : ended m s a b ⁻¹' univ.pi A =
    (⋃ k, endsIn m s a b A k) ∪ ((⋃ k, endsIn m s a b (fun _ => univ) k)ᶜ ∩ {_z | (0 : Fin n → ℝ) ∈ univ.pi A}) := by
  ext z
  simp only [mem_preimage, mem_union, mem_iUnion, mem_inter_iff, mem_compl_iff, mem_ofPred_eq]
  by_cases h : ∃ x k, loop m s a b z k n (fun i => m i + s i * z i) = some x
  · obtain ⟨x, k, hx⟩ := h
    rw [ended_eq hx]
    constructor
    · intro hA
      exact .inl ⟨k, x, hx, fun i => hA i (mem_univ i)⟩
    · rintro (⟨k', x', hx', hA⟩ | ⟨hno, -⟩)
      · rw [← ended_eq hx, ended_eq hx']
        exact fun i _ => hA i
      · exact absurd ⟨k, x, hx, fun i => mem_univ _⟩ hno
  · rw [ended, dif_neg h]
    constructor
    · intro h0
      refine .inr ⟨?_, h0⟩
      rintro ⟨k, x, hx, -⟩
      exact h ⟨x, k, hx⟩
    · rintro (⟨k, x, hx, -⟩ | ⟨-, h0⟩)
      · exact absurd ⟨x, k, hx⟩ h
      · exact h0

theorem ended_measurable (m s a b : Fin n → ℝ) : Measurable (ended m s a b) := by
  classical
  refine measurable_pi_lambda _ fun i B hB => ?_
  have hA : ∀ j, MeasurableSet (Function.update (fun _ : Fin n => (univ : Set ℝ)) i B j) := by
    intro j
    by_cases h : j = i
    · subst h; simpa using hB
    · simp [Function.update_of_ne h]
  have e : (fun z => ended m s a b z i) ⁻¹' B = ended m s a b ⁻¹' univ.pi (Function.update (fun _ : Fin n => (univ : Set ℝ)) i B) := by
    ext z
    simp only [mem_preimage, Set.mem_pi, mem_univ, true_imp_iff]
    constructor
    · intro h j
      by_cases hj : j = i
      · subst hj; simpa using h
      · simp [Function.update_of_ne hj]
    · intro h
      simpa using h i
  rw [e, ended_preimage]
  refine (MeasurableSet.iUnion fun k => endsIn_measurable m s a b _ hA k).union
    ((MeasurableSet.iUnion fun k => endsIn_measurable m s a b _ (fun _ => MeasurableSet.univ) k).compl.inter (MeasurableSet.const _))

theorem ended_law (m s a b : Fin n → ℝ) (hn : 0 < n) (hR : ∀ i, law (m i) (s i) (Icc (a i) (b i)) ≠ 0) (A : Fin n → Set ℝ)
    (hA : ∀ i, MeasurableSet (A i)) :
    stream (⋃ k, endsIn m s a b A k) = ∏ i, law (m i) (s i) (Icc (a i) (b i) ∩ A i) / law (m i) (s i) (Icc (a i) (b i)) := by
  have h1 := tendsto_measure_iUnion_atTop (μ := stream) (endsIn_mono m s a b A)
  have h2 : ∀ k, stream (endsIn m s a b A k) = ∏ i, within (m i) (s i) (a i) (b i) (A i) (k + 1) := by
    intro k
    have h := loop_law m s a b A hA (k + 1) fun i => b i + 1
    simp only [loop_first m s a b hn] at h
    refine h.trans (Finset.prod_congr rfl fun i _ => ?_)
    rw [from_, if_pos (.inl (by simp))]
  haveI : ∀ i, IsProbabilityMeasure (law (m i) (s i)) := fun i =>
    Measure.isProbabilityMeasure_map (Measurable.aemeasurable (by fun_prop))
  have hlim : ∀ i, law (m i) (s i) (Icc (a i) (b i) ∩ A i) * ∑' j, law (m i) (s i) (Icc (a i) (b i))ᶜ ^ j =
      law (m i) (s i) (Icc (a i) (b i) ∩ A i) / law (m i) (s i) (Icc (a i) (b i)) := by
    intro i
    rw [ENNReal.tsum_geometric, prob_compl_eq_one_sub measurableSet_Icc, ENNReal.sub_sub_cancel ENNReal.one_ne_top prob_le_one]
    rfl
  have hfin : ∀ i, law (m i) (s i) (Icc (a i) (b i) ∩ A i) / law (m i) (s i) (Icc (a i) (b i)) ≠ ⊤ := fun i =>
    ENNReal.div_ne_top (measure_ne_top _ _) (hR i)
  have h3 : Filter.Tendsto (fun k => stream (endsIn m s a b A k)) Filter.atTop
      (nhds (∏ i, law (m i) (s i) (Icc (a i) (b i) ∩ A i) / law (m i) (s i) (Icc (a i) (b i)))) := by
    simp only [h2]
    refine ENNReal.tendsto_finset_prod_of_ne_top _ (fun i _ => ?_) fun i _ => hfin i
    rw [← hlim i]
    refine ENNReal.Tendsto.const_mul ((ENNReal.tendsto_nat_tsum _).comp (Filter.tendsto_add_atTop_nat 1)) (.inr (measure_ne_top _ _))
  exact tendsto_nhds_unique h1 h3

/-- C122, `TruncNormal` vectors: with mu and sigma both numbers or both vectors, the rejection loop ends for almost every stream
of the generator, and what it ends with is drawn from the product of the densities of the components, although the components
out of range share one stream of new draws. -/
theorem C122_trunc_vector (mu sigma lo hi : Arr ℝ) (size : Option Nat) (hn : 0 < n)
    (hsize : size = some n ∨ (size = none ∧ (IsVec mu ∨ IsVec sigma))) (hsh : SameShape mu sigma) (hm : Fits n mu) (hs : Fits n sigma)
    (hlo : Fits n lo) (hhi : Fits n hi) (hpos : ∀ x ∈ sigma.entries, 0 < x) (hab : ∀ i : Fin n, lo.entry i < hi.entry i)
    (isPar : Fin 4 → Bool) : ∃ res : (Nat → ℝ) → Fin n → ℝ,
      (∀ᵐ z ∂stream, ∃ k, ∀ fuel, k ≤ fuel →
        truncNormalSampler z mu sigma lo hi size fuel = .ok (some (.vec (List.ofFn (res z))))) ∧
      DrawsFrom stream res fun x =>
        ∏ i : Fin n, truncNormalPdf (x i) (mu.entry i) (sigma.entry i) (lo.entry i) (hi.entry i) isPar := by
  have hsig : ∀ i : Fin n, 0 < sigma.entry i := by
    intro i
    cases sigma with
    | num x => exact hpos x (by simp [Arr.entries])
    | vec xs =>
      have hl : xs.length = n := hs
      refine hpos _ ?_
      have hi' : (i : Nat) < xs.length := by omega
      simp [Arr.entry, Arr.entries, hi']
  let m : Fin n → ℝ := fun i => mu.entry i
  let s : Fin n → ℝ := fun i => sigma.entry i
  let a : Fin n → ℝ := fun i => lo.entry i
  let b : Fin n → ℝ := fun i => hi.entry i
  have hd := fun i : Fin n => trunc_density (m i) (s i) (a i) (b i) (hsig i) (hab i) isPar
  have hR := fun i => (hd i).1
  have hall : stream (⋃ k, endsIn m s a b (fun _ => univ) k)ᶜ = 0 := by
    rw [prob_compl_eq_zero_iff (MeasurableSet.iUnion fun k => endsIn_measurable m s a b _ (fun _ => MeasurableSet.univ) k),
      ended_law m s a b hn hR _ fun _ => MeasurableSet.univ]
    refine Finset.prod_eq_one fun i _ => ?_
    rw [inter_univ, ENNReal.div_self (hR i)]
    haveI : IsProbabilityMeasure (law (m i) (s i)) := Measure.isProbabilityMeasure_map (Measurable.aemeasurable (by fun_prop))
    exact measure_ne_top _ _
  refine ⟨ended m s a b, ?_, (ended_measurable m s a b).aemeasurable, ?_⟩
  · filter_upwards [compl_mem_ae_iff.2 hall] with z hz
    rw [compl_compl] at hz
    obtain ⟨k, x, hx, -⟩ := mem_iUnion.1 hz
    refine ⟨k, fun fuel hf => ?_⟩
    rw [sampler_eq z mu sigma lo hi size fuel hsize hsh hm hs hlo hhi fun x hx => (hpos x hx).le, ended_eq hx]
    show Except.ok (Option.map _ (loop m s a b z fuel n fun i => m i + s i * z i)) = _
    rw [loop_stable m s a b z k fuel _ _ _ hf hx]
    rfl
  · have hden := fun i : Fin n => (C86_trunc_normal (m i) (s i) (a i) (b i) (hsig i) (hab i) isPar).1
    show _ = (volume : Measure (Fin n → ℝ)).withDensity fun x => ENNReal.ofReal (∏ i, truncNormalPdf (x i) (m i) (s i) (a i) (b i) isPar)
    rw [← pi_density (fun i x => truncNormalPdf x (m i) (s i) (a i) (b i) isPar) hden]
    haveI := fun i => finite_density (hden i)
    refine (Measure.pi_eq fun A hA => ?_).symm
    have h0 : ∀ T, stream ((⋃ k, endsIn m s a b (fun _ => univ) k)ᶜ ∩ T) = 0 := fun T => measure_mono_null inter_subset_left hall
    have hu : ∀ S T, stream (S ∪ ((⋃ k, endsIn m s a b (fun _ => univ) k)ᶜ ∩ T)) = stream S := fun S T =>
      le_antisymm ((measure_union_le _ _).trans (by rw [h0, add_zero])) (measure_mono subset_union_left)
    rw [Measure.map_apply (ended_measurable m s a b) (MeasurableSet.univ_pi hA), ended_preimage, hu, ended_law m s a b hn hR A hA]
    exact Finset.prod_congr rfl fun i _ => ((hd i).2 (A i) (hA i)).symm

/-- Two components, one of them with a range far from its mean. -/
example : ∃ res : (Nat → ℝ) → Fin 2 → ℝ,
    (∀ᵐ z ∂stream, ∃ k, ∀ fuel, k ≤ fuel →
      truncNormalSampler z (.vec [0, 5]) (.vec [1, 2]) (.vec [-1, 20]) (.vec [1, 21]) none fuel = .ok (some (.vec (List.ofFn (res z))))) ∧
    DrawsFrom stream res fun x => ∏ i : Fin 2, truncNormalPdf (x i) ((Arr.vec [0, 5]).entry i) ((Arr.vec [1, 2]).entry i)
      ((Arr.vec [-1, 20]).entry i) ((Arr.vec [1, 21]).entry i) fun _ => false := by
  refine C122_trunc_vector (.vec [0, 5]) (.vec [1, 2]) (.vec [-1, 20]) (.vec [1, 21]) none (by norm_num) (.inr ⟨rfl, .inl trivial⟩) trivial rfl rfl rfl rfl ?_ ?_ _
  · intro x hx
    simp only [Arr.entries, List.mem_cons, List.not_mem_nil, or_false] at hx
    rcases hx with rfl | rfl <;> norm_num
  · intro i
    match i with
    | 0 => simp [Arr.entry]
    | 1 =>
      show (20 : ℝ) < 21
      norm_num

end Verif.Priors
