import Verif.Lemmas.Selections
import Mathlib.Tactic.Linarith
import Mathlib.Tactic.NormNum
import Mathlib.Algebra.Order.Ring.Rat

/-!
# Properties C01–C06: selection functions
-/

set_option linter.unusedSectionVars false
set_option linter.unusedSimpArgs false

namespace Verif.Selections

open Verif

/-! ## C01: flag selections partition the TOAs -/

/-- Generic form shared by the flag selections: the masks are a partition, keyed by
the flag value; no mask is empty; keys are strictly increasing. -/
theorem C01_by_backend (flags : List String) :
    IsPartition flags.length (byBackend flags) ∧
    (∀ k m, (k, m) ∈ byBackend flags →
      (∃ i, InMask m i) ∧ ∀ i, InMask m i ↔ flags[i]? = some k) ∧
    ((byBackend flags).map Prod.fst).Pairwise (· < ·) := by
  have hd : byBackend flags = (npUnique flags).map fun v => (v, eqMask flags v) :=
    maskDict_eq _ _ (nodup_npUnique flags)
  have hk : (byBackend flags).map Prod.fst = npUnique flags := by
    rw [hd]; simp [Function.comp_def]
  refine ⟨⟨?_, ?_, ?_⟩, ?_, ?_⟩
  · rw [hd]; intro km h
    simp only [List.mem_map] at h
    obtain ⟨v, _, rfl⟩ := h
    simp [eqMask]
  · rw [hk]; exact nodup_npUnique flags
  · intro i hi
    refine ⟨(flags[i], eqMask flags flags[i]), ⟨?_, ?_⟩, ?_⟩
    · rw [hd, List.mem_map]
      exact ⟨flags[i], (mem_npUnique _ _).2 (List.getElem_mem hi), rfl⟩
    · rw [inMask_eqMask]; simp [hi]
    · rintro ⟨k, m⟩ ⟨hm, hin⟩
      rw [hd, List.mem_map] at hm
      obtain ⟨v, _, hv⟩ := hm
      cases hv
      rw [inMask_eqMask] at hin
      simp [hi] at hin
      simp [hin]
  · intro k m h
    rw [hd, List.mem_map] at h
    obtain ⟨v, hv, hv'⟩ := h
    cases hv'
    refine ⟨?_, fun i => inMask_eqMask flags k i⟩
    rw [mem_npUnique] at hv
    obtain ⟨i, hi, he⟩ := List.getElem_of_mem hv
    exact ⟨i, by rw [inMask_eqMask]; simp [hi, he]⟩
  · rw [hk]; exact pairwise_npUnique flags

/-- `by_telescope` is a partition keyed by telescope. -/
theorem C01_by_telescope (tel : List String) :
    IsPartition tel.length (byTelescope tel) ∧
    (∀ k m, (k, m) ∈ byTelescope tel →
      (∃ i, InMask m i) ∧ ∀ i, InMask m i ↔ tel[i]? = some k) ∧
    ((byTelescope tel).map Prod.fst).Pairwise (· < ·) := C01_by_backend tel

/-- `by_band` raises exactly when there is no `B` flag and otherwise partitions by it. -/
theorem C01_by_band (flags : Dict String (List String)) :
    (Dict.get? flags "B" = none → byBand flags = .error .keyError) ∧
    ∀ f, Dict.get? flags "B" = some f → ∃ d, byBand flags = .ok d ∧
      IsPartition f.length d ∧
      ∀ k m, (k, m) ∈ d → (∃ i, InMask m i) ∧ ∀ i, InMask m i ↔ f[i]? = some k := by
  constructor
  · intro h; simp [byBand, Dict.get!, h, bind, Except.bind]
  · intro f h
    refine ⟨byBackend f, ?_, (C01_by_backend f).1, (C01_by_backend f).2.1⟩
    simp [byBand, Dict.get!, h, bind, Except.bind, pure, Except.pure, byBackend]

/-- `by_frontend` raises exactly when there is no `fe` flag and otherwise partitions by it. -/
theorem C01_by_frontend (flags : Dict String (List String)) :
    (Dict.get? flags "fe" = none → byFrontend flags = .error .keyError) ∧
    ∀ f, Dict.get? flags "fe" = some f → ∃ d, byFrontend flags = .ok d ∧
      IsPartition f.length d ∧
      ∀ k m, (k, m) ∈ d → (∃ i, InMask m i) ∧ ∀ i, InMask m i ↔ f[i]? = some k := by
  constructor
  · intro h; simp [byFrontend, Dict.get!, h, bind, Except.bind]
  · intro f h
    refine ⟨byBackend f, ?_, (C01_by_backend f).1, (C01_by_backend f).2.1⟩
    simp [byFrontend, Dict.get!, h, bind, Except.bind, pure, Except.pure, byBackend]

/-- `no_selection` is the one-block partition with the empty key. -/
theorem C01_no_selection {K : Type*} (toas : List K) :
    IsPartition toas.length (noSelection toas) ∧
    (noSelection toas).map Prod.fst = [""] ∧
    (toas ≠ [] → ∀ km ∈ noSelection toas, ∃ i, InMask km.2 i) := by
  refine ⟨⟨?_, by simp [noSelection], ?_⟩, rfl, fun h km hkm => ⟨0, ?_⟩⟩
  · simp [noSelection]
  · intro i hi
    refine ⟨("", toas.map fun _ => true), ⟨by simp [noSelection], ?_⟩, ?_⟩
    · simp [InMask, hi]
    · rintro km ⟨h, _⟩; simpa [noSelection] using h
  · simp only [noSelection, List.mem_singleton] at hkm
    subst hkm
    simp [InMask, List.length_pos_of_ne_nil h]

-- A concrete case: three TOAs, two backends.
example : byBackend ["b", "a", "b"] =
    [("a", [false, true, false]), ("b", [true, false, true])] := by decide +kernel

/-! ## C02: cut_half -/

section Numeric
variable {K : Type*} [Field K] [LinearOrder K] [IsStrictOrderedRing K]

omit [Field K] [IsStrictOrderedRing K] in
theorem le_arrMax (a : K) (l : List K) : ∀ x ∈ a :: l, x ≤ arrMax a l := by
  induction l generalizing a with
  | nil => simp [arrMax]
  | cons b t ih =>
    intro x hx
    have h := ih (max a b)
    simp only [List.mem_cons] at hx h
    rcases hx with rfl | rfl | hx
    · exact le_trans (le_max_left _ _) (h _ (Or.inl rfl))
    · exact le_trans (le_max_right _ _) (h _ (Or.inl rfl))
    · exact h x (Or.inr hx)

omit [Field K] [IsStrictOrderedRing K] in
theorem arrMin_le (a : K) (l : List K) : ∀ x ∈ a :: l, arrMin a l ≤ x := by
  induction l generalizing a with
  | nil => simp [arrMin]
  | cons b t ih =>
    intro x hx
    have h := ih (min a b)
    simp only [List.mem_cons] at hx h
    rcases hx with rfl | rfl | hx
    · exact le_trans (h _ (Or.inl rfl)) (min_le_left _ _)
    · exact le_trans (h _ (Or.inl rfl)) (min_le_right _ _)
    · exact h x (Or.inr hx)

omit [Field K] [IsStrictOrderedRing K] in
theorem arrMax_mem (a : K) (l : List K) : arrMax a l ∈ a :: l := by
  induction l generalizing a with
  | nil => simp [arrMax]
  | cons b t ih =>
    have h := ih (max a b)
    rcases max_choice a b with e | e <;> rw [e] at h <;> simp only [arrMax, e, List.mem_cons] at h ⊢ <;> tauto

omit [Field K] [IsStrictOrderedRing K] in
theorem arrMin_mem (a : K) (l : List K) : arrMin a l ∈ a :: l := by
  induction l generalizing a with
  | nil => simp [arrMin]
  | cons b t ih =>
    have h := ih (min a b)
    rcases min_choice a b with e | e <;> rw [e] at h <;> simp only [arrMin, e, List.mem_cons] at h ⊢ <;> tauto

/-- `cut_half` raises on no TOAs; otherwise it returns two masks `t1`, `t2` that
partition the TOAs, `t1` is before `t2`, `t1` contains the earliest TOA, and `t2` is
empty exactly when all TOAs coincide. -/
theorem C02_cut_half (toas : List K) :
    (toas = [] → cutHalf toas = .error .valueError) ∧
    (toas ≠ [] → ∃ m1 m2, cutHalf toas = .ok [("t1", m1), ("t2", m2)] ∧
      IsPartition toas.length [("t1", m1), ("t2", m2)] ∧
      (∀ i j x y, toas[i]? = some x → toas[j]? = some y → InMask m1 i → InMask m2 j → x < y) ∧
      (∃ i, InMask m1 i) ∧
      ((¬ ∃ i, InMask m2 i) ↔ ∀ x ∈ toas, ∀ y ∈ toas, x = y)) := by
  constructor
  · rintro rfl; rfl
  intro hne
  obtain ⟨t, ts, rfl⟩ := List.exists_cons_of_ne_nil hne
  set mid := (arrMax t ts + arrMin t ts) / 2 with hmid
  have hle := le_arrMax t ts
  have hge := arrMin_le t ts
  have hmm := arrMin_mem t ts
  have hMm := arrMax_mem t ts
  have hmM : arrMin t ts ≤ arrMax t ts := hge _ hMm
  have in1 : ∀ i, InMask ((t :: ts).map fun x => decide (x ≤ mid)) i ↔
      ∃ x, (t :: ts)[i]? = some x ∧ x ≤ mid := by
    intro i; simp only [InMask, List.getElem?_map, Option.map_eq_some_iff, decide_eq_true_eq]
  have in2 : ∀ i, InMask ((t :: ts).map fun x => decide (x > mid)) i ↔
      ∃ x, (t :: ts)[i]? = some x ∧ mid < x := by
    intro i; simp only [InMask, List.getElem?_map, Option.map_eq_some_iff, decide_eq_true_eq, gt_iff_lt]
  refine ⟨_, _, rfl, ⟨?_, by simp, ?_⟩, ?_, ?_, ?_⟩
  · intro km h
    simp only [List.mem_cons, List.not_mem_nil, or_false] at h
    rcases h with rfl | rfl <;> simp
  · intro i hi
    have hx : (t :: ts)[i]? = some (t :: ts)[i] := List.getElem?_eq_getElem hi
    rcases le_or_gt (t :: ts)[i] mid with h | h
    · refine ⟨_, ⟨List.mem_cons_self, (in1 i).2 ⟨_, hx, h⟩⟩, ?_⟩
      rintro km ⟨hm, hin⟩
      simp only [List.mem_cons, List.not_mem_nil, or_false] at hm
      rcases hm with rfl | rfl
      · rfl
      · obtain ⟨x, e, hlt⟩ := (in2 i).1 hin
        rw [hx] at e; cases e
        exact absurd hlt (not_lt.2 h)
    · refine ⟨_, ⟨List.mem_cons_of_mem _ List.mem_cons_self, (in2 i).2 ⟨_, hx, h⟩⟩, ?_⟩
      rintro km ⟨hm, hin⟩
      simp only [List.mem_cons, List.not_mem_nil, or_false] at hm
      rcases hm with rfl | rfl
      · obtain ⟨x, e, hlt⟩ := (in1 i).1 hin
        rw [hx] at e; cases e
        exact absurd hlt (not_le.2 h)
      · rfl
  · intro i j x y hx hy h1 h2
    obtain ⟨x', e1, l1⟩ := (in1 i).1 h1
    obtain ⟨y', e2, l2⟩ := (in2 j).1 h2
    rw [hx] at e1; rw [hy] at e2; cases e1; cases e2
    exact lt_of_le_of_lt l1 l2
  · obtain ⟨i, hi, e⟩ := List.getElem_of_mem hmm
    refine ⟨i, (in1 i).2 ⟨arrMin t ts, by rw [List.getElem?_eq_getElem hi, e], ?_⟩⟩
    rw [hmid]; linarith
  · constructor
    · intro hno x hx y hy
      obtain ⟨i, hi, e⟩ := List.getElem_of_mem hMm
      have : ¬ mid < arrMax t ts := fun h =>
        hno ⟨i, (in2 i).2 ⟨_, by rw [List.getElem?_eq_getElem hi, e], h⟩⟩
      have heq : arrMax t ts = arrMin t ts := by
        rw [hmid] at this; linarith
      have := hle x hx; have := hge x hx; have := hle y hy; have := hge y hy
      rw [heq] at *
      exact le_antisymm (by linarith) (by linarith)
    · rintro hall ⟨i, hi⟩
      obtain ⟨x, e, hlt⟩ := (in2 i).1 hi
      have hxm : x ∈ t :: ts := List.mem_of_getElem? e
      have e1 := hall x hxm _ hMm
      have e2 := hall x hxm _ hmm
      rw [hmid, ← e1, ← e2] at hlt
      linarith

example : cutHalf ([1, 2, 5, 3] : List ℚ) =
    .ok [("t1", [true, true, false, true]), ("t2", [false, false, true, false])] := by
  simp [cutHalf, arrMax, arrMin]; norm_num

end Numeric

/-! ## C03: backend filters -/

/-- A TOA flag matches a list of names when it contains one of them. -/
def Matches (names : List String) (flag : String) : Prop :=
  ∃ b ∈ names, ∃ pre post, flag.toList = pre ++ b.toList ++ post

theorem isSubstr_iff (b v : String) :
    isSubstr b v = true ↔ ∃ pre post, v.toList = pre ++ b.toList ++ post := by
  rw [isSubstr, decide_eq_true_iff]
  constructor
  · rintro ⟨s, t, e⟩; exact ⟨s, t, e.symm⟩
  · rintro ⟨s, t, e⟩; exact ⟨s, t, e.symm⟩

theorem mem_filterNames (names vals : List String) (v : String) :
    v ∈ filterNames names vals ↔ v ∈ vals ∧ Matches names v := by
  simp only [filterNames, List.mem_filter, List.any_eq_true, Matches, isSubstr_iff]

/-- Statement shared by the two backend filters. -/
def SelectsMatching (names flags : List String) (d : Dict String Mask) : Prop :=
  (∀ km ∈ d, km.2.length = flags.length) ∧
  (d.map Prod.fst).Nodup ∧
  (∀ i f, flags[i]? = some f → Matches names f → ∃! km, km ∈ d ∧ InMask km.2 i) ∧
  (∀ i f, flags[i]? = some f → ¬ Matches names f → ∀ km ∈ d, ¬ InMask km.2 i) ∧
  (∀ k m, (k, m) ∈ d → (∃ i, InMask m i) ∧ ∀ i, InMask m i ↔ flags[i]? = some k)

theorem selectsMatching_maskDict (names flags : List String) :
    SelectsMatching names flags (maskDict flags (filterNames names (npUnique flags))) := by
  have hd := maskDict_eq flags (filterNames names (npUnique flags))
    (nodup_filterNames _ _ (nodup_npUnique flags))
  rw [hd]
  refine ⟨?_, ?_, ?_, ?_, ?_⟩
  · intro km h
    simp only [List.mem_map] at h
    obtain ⟨v, _, rfl⟩ := h
    simp [eqMask]
  · simpa [Function.comp_def] using nodup_filterNames names _ (nodup_npUnique flags)
  · intro i f hf hm
    refine ⟨(f, eqMask flags f), ⟨List.mem_map.2 ⟨f, ?_, rfl⟩, (inMask_eqMask _ _ _).2 hf⟩, ?_⟩
    · exact (mem_filterNames _ _ _).2 ⟨(mem_npUnique _ _).2 (List.mem_of_getElem? hf), hm⟩
    · rintro ⟨k, m⟩ ⟨h, hin⟩
      obtain ⟨v, _, hv⟩ := List.mem_map.1 h
      cases hv
      rw [inMask_eqMask, hf] at hin
      cases hin; rfl
  · intro i f hf hm km h hin
    obtain ⟨v, hv, rfl⟩ := List.mem_map.1 h
    rw [inMask_eqMask, hf] at hin
    cases hin
    exact hm ((mem_filterNames _ _ _).1 hv).2
  · intro k m h
    obtain ⟨v, hv, hv'⟩ := List.mem_map.1 h
    cases hv'
    have := (mem_npUnique _ _).1 ((mem_filterNames _ _ _).1 hv).1
    obtain ⟨i, hi, e⟩ := List.getElem_of_mem this
    exact ⟨⟨i, (inMask_eqMask _ _ _).2 (by rw [List.getElem?_eq_getElem hi, e])⟩,
      fun i => inMask_eqMask _ _ _⟩

theorem C03_nanograv_backends (flags : List String) :
    SelectsMatching ["ASP", "GASP", "GUPPI", "PUPPI", "YUPPI", "CHIME", "VEGAS"] flags
      (nanogravBackends flags) :=
  selectsMatching_maskDict _ _

theorem C03_custom_backends_list (names flags : List String) :
    SelectsMatching names flags (customBackends (some (.list names)) flags).1 :=
  selectsMatching_maskDict _ _

theorem C03_custom_backends_str (name : String) (flags : List String) :
    SelectsMatching [name] flags (customBackends (some (.str name)) flags).1 :=
  selectsMatching_maskDict _ _

example : nanogravBackends ["L-wide_ASP", "EPTA", "CHIME"] =
    [("CHIME", [false, false, true]), ("L-wide_ASP", [true, false, false])] := by decide +kernel

/-! ## C04: frequency bands -/

section Numeric
variable {K : Type*} [Field K] [LinearOrder K] [IsStrictOrderedRing K]

theorem inMask_bandMask (freqs : List K) (b : K × K) (i : Nat) :
    InMask (bandMask freqs b) i ↔ ∃ f, freqs[i]? = some f ∧ b.1 ≤ f ∧ f < b.2 := by
  simp only [InMask, bandMask, List.getElem?_map, Option.map_eq_some_iff, Bool.and_eq_true,
    decide_eq_true_eq]

/-- Membership in the result of `by_freq_band` for a band table with distinct names. -/
theorem mem_byFreqBand (bands : Dict String (K × K)) (hn : (bands.map Prod.fst).Nodup)
    (freqs : List K) (km : String × Mask) :
    km ∈ (byFreqBand (some bands) freqs).1 ↔
      ∃ b, (km.1, b) ∈ bands ∧ km.2 = bandMask freqs b ∧ ∃ i, InMask km.2 i := by
  have hof : (byFreqBand (some bands) freqs).1 =
      (bands.filter fun kb => (bandMask freqs kb.2).any id).map
        fun kb => (kb.1, bandMask freqs kb.2) := by
    apply Dict.ofList_of_nodup
    rw [List.map_map]
    have : (Prod.fst ∘ fun kb : String × (K × K) => (kb.1, bandMask freqs kb.2)) = Prod.fst := rfl
    rw [this]
    exact hn.sublist (List.filter_sublist.map _)
  have hany : ∀ m : Mask, m.any id = true ↔ ∃ i, InMask m i := by
    intro m
    simp only [List.any_eq_true, id, InMask]
    constructor
    · rintro ⟨x, hx, rfl⟩
      obtain ⟨i, hi, e⟩ := List.getElem_of_mem hx
      exact ⟨i, by rw [List.getElem?_eq_getElem hi, e]⟩
    · rintro ⟨i, h⟩
      exact ⟨true, List.mem_of_getElem? h, rfl⟩
  rw [hof, List.mem_map]
  constructor
  · rintro ⟨kb, h, rfl⟩
    rw [List.mem_filter] at h
    exact ⟨kb.2, h.1, rfl, (hany _).1 h.2⟩
  · rintro ⟨b, hb, e, hi⟩
    refine ⟨(km.1, b), List.mem_filter.2 ⟨hb, ?_⟩, ?_⟩
    · rw [hany, ← e]; exact hi
    · rw [← e]

/-- User-supplied bands: masks are non-empty, hold exactly the TOAs in the half-open band,
and if the bands are disjoint no TOA is in two masks. -/
theorem C04_user_bands (bands : Dict String (K × K)) (hn : (bands.map Prod.fst).Nodup)
    (freqs : List K) :
    (∀ km ∈ (byFreqBand (some bands) freqs).1, km.2.length = freqs.length ∧
      (∃ i, InMask km.2 i) ∧
      ∃ lo hi, (km.1, (lo, hi)) ∈ bands ∧
        ∀ i, InMask km.2 i ↔ ∃ f, freqs[i]? = some f ∧ lo ≤ f ∧ f < hi) ∧
    (∀ name lo hi i f, (name, (lo, hi)) ∈ bands → freqs[i]? = some f → lo ≤ f → f < hi →
      ∃ m, (name, m) ∈ (byFreqBand (some bands) freqs).1 ∧ InMask m i) ∧
    ((∀ b ∈ bands, ∀ b' ∈ bands, ∀ f, b.2.1 ≤ f → f < b.2.2 → b'.2.1 ≤ f → f < b'.2.2 → b = b') →
      MasksDisjoint (byFreqBand (some bands) freqs).1) := by
  refine ⟨?_, ?_, ?_⟩
  · intro km h
    obtain ⟨b, hb, e, hi⟩ := (mem_byFreqBand bands hn freqs km).1 h
    refine ⟨by rw [e]; simp [bandMask], hi, b.1, b.2, hb, fun i => ?_⟩
    rw [e]; exact inMask_bandMask freqs b i
  · intro name lo hi i f hb hf h1 h2
    have hin : InMask (bandMask freqs (lo, hi)) i := (inMask_bandMask _ _ _).2 ⟨f, hf, h1, h2⟩
    exact ⟨_, (mem_byFreqBand bands hn freqs (name, _)).2 ⟨_, hb, rfl, i, hin⟩, hin⟩
  · intro hdis km h km' h' i hi hi'
    obtain ⟨b, hb, e, -⟩ := (mem_byFreqBand bands hn freqs km).1 h
    obtain ⟨b', hb', e', -⟩ := (mem_byFreqBand bands hn freqs km').1 h'
    rw [e] at hi; rw [e'] at hi'
    obtain ⟨f, hf, l1, l2⟩ := (inMask_bandMask _ _ _).1 hi
    obtain ⟨f', hf', l1', l2'⟩ := (inMask_bandMask _ _ _).1 hi'
    rw [hf] at hf'; cases hf'
    have := hdis _ hb _ hb' f l1 l2 l1' l2'
    cases km; cases km'
    simp only [Prod.mk.injEq] at this
    simp only [Prod.mk.injEq]
    refine ⟨this.1, ?_⟩
    simp only at e e'
    rw [e, e', this.2]

/-- The default bands: a TOA with frequency in `[0, 10000)` is in exactly one mask, any
other TOA in none, and no mask is empty. -/
theorem C04_default_bands (freqs : List K) :
    (∀ i f, freqs[i]? = some f → 0 ≤ f → f < 10000 →
      ∃! km, km ∈ (byFreqBand none freqs).1 ∧ InMask km.2 i) ∧
    (∀ i f, freqs[i]? = some f → (f < 0 ∨ 10000 ≤ f) →
      ∀ km ∈ (byFreqBand none freqs).1, ¬ InMask km.2 i) ∧
    (∀ km ∈ (byFreqBand none freqs).1, ∃ i, InMask km.2 i) := by
  have hn : ((defaultBands : Dict String (K × K)).map Prod.fst).Nodup := by
    simp [defaultBands]
  have h := C04_user_bands (defaultBands : Dict String (K × K)) hn freqs
  have e0 : (byFreqBand none freqs).1 = (byFreqBand (some defaultBands) freqs).1 := rfl
  rw [e0]
  have hdis : ∀ b ∈ (defaultBands : Dict String (K × K)), ∀ b' ∈ (defaultBands : Dict String (K × K)),
      ∀ f, b.2.1 ≤ f → f < b.2.2 → b'.2.1 ≤ f → f < b'.2.2 → b = b' := by
    intro b hb b' hb' f h1 h2 h3 h4
    simp only [defaultBands, List.mem_cons, List.not_mem_nil, or_false] at hb hb'
    rcases hb with rfl | rfl | rfl | rfl <;> rcases hb' with rfl | rfl | rfl | rfl <;>
      first
        | rfl
        | (exfalso; norm_num at h1 h2 h3 h4; linarith)
  refine ⟨?_, ?_, fun km hkm => (h.1 km hkm).2.1⟩
  · intro i f hf h1 h2
    have hex : ∃ name lo hi, (name, (lo, hi)) ∈ (defaultBands : Dict String (K × K)) ∧ lo ≤ f ∧ f < hi := by
      rcases lt_or_ge f 1000 with a | a
      · exact ⟨"Band.1", 0, 1000, by simp [defaultBands], h1, a⟩
      rcases lt_or_ge f 2000 with b | b
      · exact ⟨"Band.2", 1000, 2000, by simp [defaultBands], a, b⟩
      rcases lt_or_ge f 3000 with c | c
      · exact ⟨"Band.3", 2000, 3000, by simp [defaultBands], b, c⟩
      · exact ⟨"Band.4", 3000, 10000, by simp [defaultBands], c, h2⟩
    obtain ⟨name, lo, hi, hb, l1, l2⟩ := hex
    obtain ⟨m, hm, hin⟩ := h.2.1 name lo hi i f hb hf l1 l2
    exact ⟨(name, m), ⟨hm, hin⟩, fun km' ⟨hm', hin'⟩ => h.2.2 hdis _ hm' _ hm i hin' hin⟩
  · intro i f hf hout km hkm hin
    obtain ⟨-, -, lo, hi, hb, hiff⟩ := h.1 km hkm
    obtain ⟨f', hf', l1, l2⟩ := (hiff i).1 hin
    rw [hf] at hf'; cases hf'
    simp only [defaultBands, List.mem_cons, List.not_mem_nil, or_false, Prod.mk.injEq] at hb
    rcases hb with ⟨-, rfl, rfl⟩ | ⟨-, rfl, rfl⟩ | ⟨-, rfl, rfl⟩ | ⟨-, rfl, rfl⟩ <;>
      rcases hout with ho | ho <;> linarith

end Numeric

example : (byFreqBand none ([430, 1400, 1000, 20000] : List ℚ)).1 =
    [("Band.1", [true, false, false, false]), ("Band.2", [false, true, true, false])] := by
  decide +kernel

/-! ## C05: documented equivalences -/

/-- The recoveries listed in the docstrings that hold. -/
theorem C05_recoveries_partial {K : Type*} (backendFlags : List String)
    (flags : Dict String (List String)) (toas : List K) :
    (customBackendsDict .other backendFlags flags toas).1 = .ok (noSelection toas) ∧
    (customBackendsDict (.dict [("B", none)]) backendFlags flags toas).1 = byBand flags ∧
    (customBackendsDict (.dict [("fe", none)]) backendFlags flags toas).1 = byFrontend flags ∧
    (customBackendsDict (.dict [("backend", none)]) backendFlags flags toas).1
      = .ok (byBackend backendFlags) ∧
    (customBackends none backendFlags).1 = byBackend backendFlags ∧
    (customBackendsDict (.dict [("backend", some (.list ngb))]) backendFlags flags toas).1
      = .ok (nanogravBackends backendFlags) ∧
    (customBackends (some (.list ngb)) backendFlags).1 = nanogravBackends backendFlags := by
  have hu : ∀ (f v : List String), v.Nodup → Dict.update [] (maskDict f v) = maskDict f v := by
    intro f v hv
    have : ((maskDict f v).map Prod.fst).Nodup := by
      rw [maskDict_eq f v hv]; simpa [Function.comp_def] using hv
    exact Dict.ofList_of_nodup this
  refine ⟨rfl, ?_, ?_, ?_, rfl, ?_, rfl⟩
  · simp only [customBackendsDict, List.foldlM, cbDictStep, byBand]
    cases h : Dict.get! flags "B" with
    | error e => rfl
    | ok f =>
      simp [h, bind, Except.bind, pure, Except.pure, hu f _ (nodup_npUnique f)]
  · simp only [customBackendsDict, List.foldlM, cbDictStep, byFrontend]
    cases h : Dict.get! flags "fe" with
    | error e => rfl
    | ok f =>
      simp [h, bind, Except.bind, pure, Except.pure, hu f _ (nodup_npUnique f)]
  · simp [customBackendsDict, List.foldlM, cbDictStep, bind, Except.bind, pure, Except.pure,
      hu _ _ (nodup_npUnique backendFlags), byBackend]
  · simp [customBackendsDict, List.foldlM, cbDictStep, bind, Except.bind, pure, Except.pure,
      CbArg.toList, hu _ _ (nodup_filterNames ngb _ (nodup_npUnique backendFlags)),
      nanogravBackends]

/-- The docstring claim that `["ASP","GASP","GUPPI","PUPPI","YUPPI"]` recovers
`nanograv_backends` is false: CHIME and VEGAS TOAs are lost. -/
theorem C05_doc_list_false :
    ¬ ∀ backendFlags, (customBackends (some (.list ["ASP", "GASP", "GUPPI", "PUPPI", "YUPPI"]))
        backendFlags).1 = nanogravBackends backendFlags := by
  intro h
  have := h ["CHIME"]
  revert this
  decide +kernel

/-- It is true for data without CHIME or VEGAS flags. -/
theorem C05_doc_list_partial (backendFlags : List String)
    (h : ∀ f ∈ backendFlags, ¬ Matches ["CHIME", "VEGAS"] f) :
    (customBackends (some (.list ["ASP", "GASP", "GUPPI", "PUPPI", "YUPPI"])) backendFlags).1
      = nanogravBackends backendFlags := by
  have : filterNames ["ASP", "GASP", "GUPPI", "PUPPI", "YUPPI"] (npUnique backendFlags)
      = filterNames ngb (npUnique backendFlags) := by
    apply List.filter_congr
    intro x hx
    have hx' := h x ((mem_npUnique _ _).1 hx)
    have h1 : isSubstr "CHIME" x = false := by
      by_contra hc
      rw [Bool.not_eq_false, isSubstr_iff] at hc
      exact hx' ⟨"CHIME", by simp, hc⟩
    have h2 : isSubstr "VEGAS" x = false := by
      by_contra hc
      rw [Bool.not_eq_false, isSubstr_iff] at hc
      exact hx' ⟨"VEGAS", by simp, hc⟩
    simp [ngb, h1, h2]
  simp only [customBackends, CbArg.toList, this, nanogravBackends]

example : ∀ f ∈ ["Rcvr1_2_GASP", "EPTA"], ¬ Matches ["CHIME", "VEGAS"] f := by
  intro f hf
  have h := mem_filterNames ["CHIME", "VEGAS"] ["Rcvr1_2_GASP", "EPTA"] f
  intro hm
  have := h.2 ⟨hf, hm⟩
  have e : filterNames ["CHIME", "VEGAS"] ["Rcvr1_2_GASP", "EPTA"] = [] := by decide +kernel
  rw [e] at this
  simp at this

/-- A dictionary naming two flags returns both masks only when the flag values differ: with a
common value the later flag overwrites the earlier, so a TOA can lose its mask. -/
theorem C05_two_flags_false :
    ¬ ∀ (flags : Dict String (List String)) (fe be : List String),
      Dict.get? flags "fe" = some fe → Dict.get? flags "be" = some be →
      ∀ d, (customBackendsDict (.dict [("fe", none), ("be", none)]) [] flags ([] : List ℚ)).1
          = .ok d →
        ∀ i f, fe[i]? = some f → ∃ m, (f, m) ∈ d ∧ InMask m i := by
  intro h
  have := h [("fe", ["X", "Y"]), ("be", ["Y", "X"])] ["X", "Y"] ["Y", "X"] rfl rfl
    [("X", [false, true]), ("Y", [true, false])] (by decide +kernel) 0 "X" rfl
  obtain ⟨m, hm, hin⟩ := this
  simp at hm
  subst hm
  simp [InMask] at hin

/-- With several flags whose values are all different, each TOA is in the mask of its value
for every flag. -/
theorem C05_two_flags_partial {K : Type*} (flags : Dict String (List String)) (a b : String)
    (fa fb backendFlags : List String) (toas : List K)
    (ha : a ≠ "backend") (hb : b ≠ "backend")
    (hfa : Dict.get? flags a = some fa) (hfb : Dict.get? flags b = some fb)
    (hdis : ∀ v ∈ fb, v ∉ fa) :
    ∃ d, (customBackendsDict (.dict [(a, none), (b, none)]) backendFlags flags toas).1 = .ok d ∧
      (∀ i f, fa[i]? = some f → ∃ m, (f, m) ∈ d ∧ InMask m i) ∧
      (∀ i f, fb[i]? = some f → ∃ m, (f, m) ∈ d ∧ InMask m i) ∧
      (d.map Prod.fst).Nodup := by
  have na := nodup_npUnique fa
  have nb := nodup_npUnique fb
  have e1 : Dict.update [] (maskDict fa (npUnique fa)) = maskDict fa (npUnique fa) := by
    apply Dict.ofList_of_nodup
    rw [maskDict_eq _ _ na]; simpa [Function.comp_def] using na
  have e2 : Dict.update (maskDict fa (npUnique fa)) (maskDict fb (npUnique fb))
      = maskDict fa (npUnique fa) ++ maskDict fb (npUnique fb) := by
    apply Dict.update_append_of_fresh
    · rw [maskDict_eq _ _ nb]; simpa [Function.comp_def] using nb
    · intro k hk
      rw [maskDict_eq _ _ nb] at hk
      rw [maskDict_eq _ _ na]
      simp only [List.map_map, Function.comp_def, List.map_id', mem_npUnique] at hk ⊢
      exact hdis k hk
  refine ⟨maskDict fa (npUnique fa) ++ maskDict fb (npUnique fb), ?_, ?_, ?_, ?_⟩
  · simp [customBackendsDict, List.foldlM, cbDictStep, ha, hb, Dict.get!, hfa, hfb, bind,
      Except.bind, pure, Except.pure, e1, e2]
  · intro i f hf
    refine ⟨eqMask fa f, List.mem_append_left _ ?_, (inMask_eqMask _ _ _).2 hf⟩
    rw [maskDict_eq _ _ na]
    exact List.mem_map.2 ⟨f, (mem_npUnique _ _).2 (List.mem_of_getElem? hf), rfl⟩
  · intro i f hf
    refine ⟨eqMask fb f, List.mem_append_right _ ?_, (inMask_eqMask _ _ _).2 hf⟩
    rw [maskDict_eq _ _ nb]
    exact List.mem_map.2 ⟨f, (mem_npUnique _ _).2 (List.mem_of_getElem? hf), rfl⟩
  · rw [← e2]
    apply Dict.nodup_keys_update
    rw [maskDict_eq _ _ na]; simpa [Function.comp_def] using na

example : ∀ v ∈ ["GASP", "GUPPI"], v ∉ ["L-wide", "S-wide"] := by decide

/-! ## C06: closures can be reused -/

/-- Run a closure with internal state over a list of inputs, collecting the outputs. -/
def runClosure {σ α β : Type*} (f : σ → α → β × σ) : σ → List α → List β
  | _, [] => []
  | s, a :: as => (f s a).1 :: runClosure f (f s a).2 as

theorem C06_by_freq_band {K : Type*} [Field K] [LinearOrder K]
    (bands : Option (Dict String (K × K))) (psrs : List (List K)) :
    runClosure byFreqBand bands psrs = psrs.map fun p => (byFreqBand bands p).1 := by
  induction psrs generalizing bands with
  | nil => rfl
  | cons p ps ih =>
    simp only [runClosure, List.map_cons, List.cons.injEq, true_and]
    rw [ih]
    rfl

theorem C06_custom_backends (cb : Option CbArg) (psrs : List (List String)) :
    runClosure customBackends cb psrs = psrs.map fun p => (customBackends cb p).1 := by
  induction psrs generalizing cb with
  | nil => rfl
  | cons p ps ih =>
    simp only [runClosure, List.map_cons, List.cons.injEq, true_and]
    rw [ih]
    cases cb <;> rfl

theorem C06_custom_backends_dict {K : Type*} (cb : CbDictArg)
    (psrs : List (List String × Dict String (List String) × List K)) :
    runClosure (fun c p => customBackendsDict c p.1 p.2.1 p.2.2) cb psrs
      = psrs.map fun p => (customBackendsDict cb p.1 p.2.1 p.2.2).1 := by
  induction psrs generalizing cb with
  | nil => rfl
  | cons p ps ih =>
    simp only [runClosure, List.map_cons, List.cons.injEq, true_and]
    rw [ih]
    cases cb <;> rfl

-- Two pulsars through one closure, the first with no matching TOA.
example : runClosure customBackends (some (.str "ASP")) [["X"], ["GASP", "Y"]] =
    [[], [("GASP", [true, false])]] := by decide +kernel

/-! ## C77: by_index -/

/-- `by_index(name, idx)` returns one mask under the given name; it has one entry per TOA and
selects exactly the TOAs whose position is listed; positions outside the data, negative ones
included, select nothing. -/
theorem C77_by_index {K : Type*} (name : String) (idx : List Int) (toas : List K) :
    ∃ m, byIndex name idx toas = [(name, m)] ∧ m.length = toas.length ∧
      ∀ i : Nat, InMask m i ↔ i < toas.length ∧ (i : Int) ∈ idx := by
  refine ⟨_, rfl, by simp, ?_⟩
  intro i
  simp only [InMask, List.getElem?_map]
  by_cases hi : i < toas.length
  · simp [hi]
  · simp [List.getElem?_eq_none, hi, not_lt.1 hi]

example : byIndex "sel" [2, 0, -1, 7] ["a", "b", "c"] = [("sel", [true, false, true])] := by
  decide +kernel

end Verif.Selections
