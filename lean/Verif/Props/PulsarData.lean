import Verif.Lemmas.PulsarData
import Mathlib.Tactic.Linarith
import Mathlib.Data.Rat.Defs
import Mathlib.Algebra.Order.BigOperators.Group.List

/-! # C13-C18: pulsar arrays stay aligned -/

set_option linter.unusedSectionVars false

namespace Verif.PulsarData

open Verif

variable {K V : Type} [Field K] [LinearOrder K]

/-- Every per-TOA array of the pulsar has one entry per TOA. -/
structure Aligned (p : Psr K V) : Prop where
  stoas : p.stoas.length = p.toas.length
  toaerrs : p.toaerrs.length = p.toas.length
  residuals : p.residuals.length = p.toas.length
  ssbfreqs : p.ssbfreqs.length = p.toas.length
  designmatrix : p.designmatrix.length = p.toas.length
  posT : p.posT.length = p.toas.length
  telescope : p.telescope.length = p.toas.length
  flags : ∀ kv ∈ p.flags, kv.2.length = p.toas.length
  planetssb : ∀ a, p.planetssb = some a → a.length = p.toas.length
  sunssb : ∀ a, p.sunssb = some a → a.length = p.toas.length

theorem readsAs_gather {α : Type} (raw : List α) (q : List Nat) (h : ∀ i ∈ q, i < raw.length) :
    ReadsAs raw q (gather raw q) := by
  obtain ⟨o, ho⟩ := picks_exists raw q h
  exact ⟨o, (gather_ok_iff _ _ _).2 ho, ho⟩

/-- C13: when sorting is on, one permutation of the file order serves every public attribute: it
puts the TOAs in non-decreasing time order, keeps simultaneous TOAs in file order, and every
per-TOA attribute is the file-order array read through it. -/
theorem C13_one_permutation (p : Psr K V) (h : Aligned p) (hs : p.sort = true) :
    ∃ q : List Nat, TimeOrdered p.toas (fun _ => True) q ∧
      ReadsAs p.toas q (sortData p).getToas ∧
      ReadsAs p.stoas q (sortData p).getStoas ∧
      ReadsAs p.toaerrs q (sortData p).getToaerrs ∧
      ReadsAs p.residuals q (sortData p).getResiduals ∧
      ReadsAs p.ssbfreqs q (sortData p).getFreqs ∧
      ReadsAs p.designmatrix q (sortData p).getMmat ∧
      ReadsAs p.posT q (sortData p).getPosT ∧
      ReadsAs p.telescope q (sortData p).getTelescope ∧
      (∀ a, p.planetssb = some a → ReadsAs a q (sortData p).getPlanetssb) ∧
      (∀ a, p.sunssb = some a → ReadsAs a q (sortData p).getSunssb) ∧
      (∀ name vals, Dict.get? p.flags name = some vals →
        ReadsAs vals q ((sortData p).getFlag name)) := by
  have hb : ∀ {α : Type} (raw : List α), raw.length = p.toas.length →
      ReadsAs raw (argsortStable p.toas) (gather raw (argsortStable p.toas)) := by
    intro α raw hl
    apply readsAs_gather
    intro i hi; rw [hl]; exact (mem_argsortStable _ _).1 hi
  refine ⟨argsortStable p.toas, timeOrdered_argsort _, ?_⟩
  simp only [Psr.getToas, Psr.getStoas, Psr.getToaerrs, Psr.getResiduals, Psr.getFreqs,
    Psr.getMmat, Psr.getPosT, Psr.getTelescope, Psr.getPlanetssb, Psr.getSunssb, Psr.getFlag,
    sortData, hs, if_true, applyIdx]
  refine ⟨hb _ rfl, hb _ h.stoas, hb _ h.toaerrs, hb _ h.residuals, hb _ h.ssbfreqs,
    hb _ h.designmatrix, hb _ h.posT, hb _ h.telescope, ?_, ?_, ?_⟩
  · intro a ha; rw [ha]; exact hb _ (h.planetssb a ha)
  · intro a ha; rw [ha]; exact hb _ (h.sunssb a ha)
  · intro name vals hv
    have := hb vals (h.flags _ (Dict.mem_of_get?_eq_some hv))
    simp only [Dict.get!, hv]
    exact this

/-- C13, consequence: the public TOAs are sorted. -/
theorem C13_sorted (p : Psr K V) (hs : p.sort = true) (out : List K)
    (ho : (sortData p).getToas = .ok out) : out.Pairwise (· ≤ ·) ∧ out.Perm p.toas := by
  simp only [Psr.getToas, sortData, hs, if_true, applyIdx] at ho
  have hp := (gather_ok_iff _ _ _).1 ho
  have ht := timeOrdered_argsort p.toas
  constructor
  · rw [List.pairwise_iff_getElem]
    intro a b ha hb hab
    have e1 := hp.getElem? a
    have e2 := hp.getElem? b
    rw [List.getElem?_eq_getElem ha] at e1
    rw [List.getElem?_eq_getElem hb] at e2
    obtain ⟨i, hi, hi'⟩ := Option.bind_eq_some_iff.1 e1.symm
    obtain ⟨j, hj, hj'⟩ := Option.bind_eq_some_iff.1 e2.symm
    obtain ⟨ti, tj, hti, htj, hlt⟩ := ht.2.2 a b i j hab hi hj
    rw [hi'] at hti; rw [hj'] at htj
    cases hti; cases htj
    rcases hlt with h | h
    · exact h.le
    · exact h.1.le
  · have h1 : (out.map some).Perm (p.toas.map some) := by
      have e := picks_range p.toas
      unfold Picks at hp e
      rw [hp, e]
      exact (perm_argsortStable p.toas).map _
    exact (List.map_perm_map_iff (Option.some_injective _)).1 h1

/-- C13, sorting off: attributes are the file-order arrays. -/
theorem C13_unsorted (p : Psr K V) (hs : p.sort = false) :
    (sortData p).getToas = .ok p.toas ∧ (sortData p).getStoas = .ok p.stoas ∧ (sortData p).getToaerrs = .ok p.toaerrs ∧
      (sortData p).getResiduals = .ok p.residuals ∧ (sortData p).getFreqs = .ok p.ssbfreqs ∧
      (sortData p).getMmat = .ok p.designmatrix ∧ (sortData p).getPosT = .ok p.posT ∧
      (sortData p).getTelescope = .ok p.telescope ∧
      (∀ a, p.planetssb = some a → (sortData p).getPlanetssb = .ok a) ∧
      (∀ a, p.sunssb = some a → (sortData p).getSunssb = .ok a) ∧
      (∀ name vals, Dict.get? p.flags name = some vals → (sortData p).getFlag name = .ok vals) := by
  refine ⟨by simp [Psr.getToas, sortData, hs, applyIdx], by simp [Psr.getStoas, sortData, hs, applyIdx],
    by simp [Psr.getToaerrs, sortData, hs, applyIdx], by simp [Psr.getResiduals, sortData, hs, applyIdx],
    by simp [Psr.getFreqs, sortData, hs, applyIdx], by simp [Psr.getMmat, sortData, hs, applyIdx],
    by simp [Psr.getPosT, sortData, hs, applyIdx], by simp [Psr.getTelescope, sortData, hs, applyIdx], ?_, ?_, ?_⟩
  · intro a ha
    simp [Psr.getPlanetssb, sortData, hs, applyIdx, ha]
  · intro a ha
    simp [Psr.getSunssb, sortData, hs, applyIdx, ha]
  · intro name vals hv
    simp [Psr.getFlag, Dict.get!, sortData, hs, applyIdx, hv, bind, Except.bind]

/-- C13, what is absent: reading the positions of the planets or of the Sun of a pulsar loaded
without them (`None` is not subscriptable), or a flag that it does not have, fails with the error
shown; and on a pulsar with one entry per TOA these reads fail in no other case. -/
theorem C13_absent (p : Psr K V) (h : Aligned p) (e : PyErr) :
    ((sortData p).getPlanetssb = .error e ↔ p.planetssb = none ∧ e = .typeError) ∧
      ((sortData p).getSunssb = .error e ↔ p.sunssb = none ∧ e = .typeError) ∧
      (∀ name, (sortData p).getFlag name = .error e ↔
        Dict.get? p.flags name = none ∧ e = .keyError) := by
  have key : ∀ {α : Type} (raw : List α), raw.length = p.toas.length →
      ∃ o, applyIdx (sortData p).isort raw = .ok o := by
    intro α raw hl
    cases hs : p.sort with
    | false => exact ⟨raw, by simp [sortData, hs, applyIdx]⟩
    | true =>
      obtain ⟨o, ho, -⟩ := readsAs_gather raw (argsortStable p.toas)
        (fun i hi => by rw [hl]; exact (mem_argsortStable _ _).1 hi)
      exact ⟨o, by simpa [sortData, hs, applyIdx] using ho⟩
  have hpl : (sortData p).planetssb = p.planetssb := by unfold sortData; split <;> rfl
  have hsu : (sortData p).sunssb = p.sunssb := by unfold sortData; split <;> rfl
  have hfl : (sortData p).flags = p.flags := by unfold sortData; split <;> rfl
  refine ⟨?_, ?_, fun name => ?_⟩
  · unfold Psr.getPlanetssb
    rw [hpl]
    cases hp : p.planetssb with
    | none => simp [eq_comm]
    | some a =>
      obtain ⟨o, ho⟩ := key a (h.planetssb a hp)
      simp [ho]
  · unfold Psr.getSunssb
    rw [hsu]
    cases hp : p.sunssb with
    | none => simp [eq_comm]
    | some a =>
      obtain ⟨o, ho⟩ := key a (h.sunssb a hp)
      simp [ho]
  · unfold Psr.getFlag Dict.get!
    rw [hfl]
    cases hp : Dict.get? p.flags name with
    | none => simp [bind, Except.bind, eq_comm]
    | some a =>
      obtain ⟨o, ho⟩ := key a (h.flags _ (Dict.mem_of_get?_eq_some hp))
      simp [bind, Except.bind, ho]

/-- C14: sorting then un-sorting (and the converse) is the identity on every per-TOA array. -/
theorem C14_inverse {α : Type} (p : Psr K V) (arr : List α) (hl : arr.length = p.toas.length) :
    (∃ s, applyIdx (sortData p).isort arr = .ok s ∧ applyIdx (sortData p).iisort s = .ok arr) ∧
    (∃ s, applyIdx (sortData p).iisort arr = .ok s ∧ applyIdx (sortData p).isort s = .ok arr) := by
  cases hs : p.sort with
  | false => simp [sortData, hs, applyIdx]
  | true =>
    simp only [sortData, hs, if_true, applyIdx]
    set l := argsortStable p.toas with hl'
    have hlen : l.length = p.toas.length := length_argsortStable _
    have hp : l.Perm (List.range l.length) := by rw [hlen]; exact perm_argsortStable _
    have hr : Picks arr (List.range l.length) arr := by
      rw [hlen, ← hl]; exact picks_range arr
    constructor
    · obtain ⟨s, hs1⟩ := picks_exists arr l fun i hi => by
        rw [hl]; exact (mem_argsortStable _ _).1 hi
      refine ⟨s, (gather_ok_iff _ _ _).2 hs1, (gather_ok_iff _ _ _).2 ?_⟩
      obtain ⟨o, ho⟩ := picks_exists s (invPerm l) fun i hi => by
        rw [hs1.length_eq]
        obtain ⟨k, hk, rfl⟩ := List.getElem_of_mem hi
        have := (picks_inv_comp hp).getElem? k
        rw [List.getElem?_eq_getElem hk] at this
        simp only [Option.bind_some] at this
        rw [length_invPerm] at hk
        have h2 : (List.range l.length)[k]? = some k := by simp [hk]
        rw [h2] at this
        exact (List.getElem?_eq_some_iff.1 this.symm).1
      have := hs1.trans ho (picks_inv_comp hp)
      have e : o = arr := by
        have a1 : o.map some = arr.map some := by
          rw [show o.map some = _ from this, show arr.map some = _ from hr]
        exact List.map_injective_iff.2 (Option.some_injective _) a1
      exact e ▸ ho
    · obtain ⟨s, hs1⟩ := picks_exists arr (invPerm l) fun i hi => by
        obtain ⟨k, hk, rfl⟩ := List.getElem_of_mem hi
        have := (picks_inv_comp hp).getElem? k
        rw [List.getElem?_eq_getElem hk] at this
        simp only [Option.bind_some] at this
        rw [length_invPerm] at hk
        have h2 : (List.range l.length)[k]? = some k := by simp [hk]
        rw [h2] at this
        rw [hl, ← hlen]
        exact (List.getElem?_eq_some_iff.1 this.symm).1
      refine ⟨s, (gather_ok_iff _ _ _).2 hs1, (gather_ok_iff _ _ _).2 ?_⟩
      obtain ⟨o, ho⟩ := picks_exists s l fun i hi => by
        rw [hs1.length_eq, length_invPerm, hlen]; exact (mem_argsortStable _ _).1 hi
      have := hs1.trans ho (picks_comp_inv hp)
      have e : o = arr := by
        have a1 : o.map some = arr.map some := by
          rw [show o.map some = _ from this, show arr.map some = _ from hr]
        exact List.map_injective_iff.2 (Option.some_injective _) a1
      exact e ▸ ho

/-- C15: flags set through the public interface read back unchanged, every other flag keeps its
value. -/
theorem C15_set_flags (p : Psr K V) (name : String) (values : List String)
    (hr : p.flagsIsRecord = false) (hl : values.length = p.toas.length) :
    ∃ p', (sortData p).setFlags name values = .ok p' ∧ p'.getFlag name = .ok values ∧
      ∀ other, other ≠ name → p'.getFlag other = (sortData p).getFlag other := by
  obtain ⟨-, s, h1, h2⟩ := C14_inverse p values hl
  have hr' : (sortData p).flagsIsRecord = false := by
    unfold sortData; split <;> simpa using hr
  refine ⟨{ sortData p with flags := Dict.set (sortData p).flags name s }, ?_, ?_, ?_⟩
  · simp [Psr.setFlags, hr', h1, bind, Except.bind, pure, Except.pure]
  · simp only [Psr.getFlag, Dict.get!, Dict.get?_set_self, bind, Except.bind]
    exact h2
  · intro other ho
    simp only [Psr.getFlag, Dict.get!, Dict.get?_set_ne _ _ (Ne.symm ho)]

/-- C15, record arrays: the call is refused. -/
theorem C15_record_refused (p : Psr K V) (name : String) (values : List String)
    (hr : p.flagsIsRecord = true) : p.setFlags name values = .error .notImplementedError := by
  simp [Psr.setFlags, hr]

/-- A two-TOA pulsar in reversed file order, used as a satisfiability witness and for the
counterexamples below. -/
def demo (toas : List ℚ) (dm : List (List ℚ)) : Psr ℚ Nat where
  sort := true
  toas := toas
  stoas := toas
  toaerrs := toas
  residuals := toas
  ssbfreqs := toas
  designmatrix := dm
  fitpars := ["Offset", "F0"]
  flags := [("f", toas.map fun _ => "x")]
  flagsIsRecord := false
  planetssb := some (List.range toas.length)
  sunssb := some (List.range toas.length)
  posT := List.range toas.length
  telescope := toas.map fun _ => "gbt"
  isort := none
  iisort := none

example : Aligned (demo [172800, 86400, 259200] [[1, 2], [1, 3], [1, 4]]) ∧
    (sortData (demo [172800, 86400, 259200] [[1, 2], [1, 3], [1, 4]])).getToas
      = .ok [86400, 172800, 259200] := by
  refine ⟨⟨rfl, rfl, rfl, rfl, rfl, rfl, rfl, ?_, ?_, ?_⟩, by decide +kernel⟩
  · intro kv hkv; simp [demo] at hkv; subst hkv; rfl
  · intro a ha; cases ha; rfl
  · intro a ha; cases ha; rfl

example : ((sortData (demo [172800, 86400, 259200] [])).setFlags "g" ["a", "b", "c"] >>=
    fun p' => p'.getFlag "g") = .ok ["a", "b", "c"] := by decide +kernel

/-! ## Time slicing -/

/-- The window test of a time slice. -/
def InWindow (start stop : Option K) (t : K) : Prop :=
  match start, stop with
  | some a, some b => a * 86400 ≤ t ∧ t ≤ b * 86400
  | _, _ => True

/-- The design matrix `m` without the columns not in `cols`. -/
def restrictCols (cols : List Nat) (m : List (List K)) : List (List K) :=
  m.map fun r => cols.map fun c => r.getD c 0

theorem getD_maskSelect_eq (row : List K) (m : Mask) (h : m.length = row.length) :
    maskSelect row m = (maskIdx m).map fun c => row.getD c 0 := by
  have := picks_mask h
  unfold Picks at this
  apply List.map_injective_iff.2 (Option.some_injective _)
  rw [this, List.map_map]
  apply List.map_congr_left
  intro c hc
  have hc' : c < row.length := by
    rw [← h]; exact (List.getElem?_eq_some_iff.1 ((mem_maskIdx m c).1 hc)).1
  simp [List.getElem?_eq_getElem hc']

/-- C16 (partial): after a time slice on aligned data there is one list of file positions —
exactly the TOAs inside the closed window, in time order — through which the TOAs, errors,
residuals, frequencies, flags and (on the surviving columns) the design matrix are read.
Missing: site arrival times, pulsar position, Sun position, telescope (not sliced at all) and,
unless the file was already in time order, planet positions; see `C16_*_false`. -/
theorem C16_filter_partial (ncol : Nat) (start stop : Option K) (p : Psr K V) (h : Aligned p)
    (hs : p.sort = true) (hss : start.isSome = stop.isSome)
    (hcol : ∀ r ∈ p.designmatrix, r.length = ncol) :
    ∃ (p' : Psr K V) (q cols : List Nat),
      filterData ncol start stop (sortData p) = .ok p' ∧
      TimeOrdered p.toas (InWindow start stop) q ∧
      ReadsAs p.toas q p'.getToas ∧
      ReadsAs p.toaerrs q p'.getToaerrs ∧
      ReadsAs p.residuals q p'.getResiduals ∧
      ReadsAs p.ssbfreqs q p'.getFreqs ∧
      ReadsAs (restrictCols cols p.designmatrix) q p'.getMmat ∧
      cols.Pairwise (· < ·) ∧
      (∀ c, c ∈ cols ↔ c < ncol ∧ (q.map fun i => (p.designmatrix.getD i []).getD c 0).sum ≠ 0) ∧
      (∀ name vals, Dict.get? p.flags name = some vals → ReadsAs vals q (p'.getFlag name)) ∧
      (p.toas.Pairwise (· ≤ ·) → ∀ a, p.planetssb = some a → ReadsAs a q p'.getPlanetssb) := by
  -- the mask
  obtain ⟨mask, hmask, hml, hmm⟩ : ∃ mask : Mask,
      windowMask start stop p.toas = .ok mask ∧ mask.length = p.toas.length ∧
      ∀ i, i ∈ maskIdx mask ↔ ∃ t, p.toas[i]? = some t ∧ InWindow start stop t := by
    cases start with
    | none =>
      cases stop with
      | none =>
        refine ⟨_, rfl, by simp, ?_⟩
        intro i; rw [mem_maskIdx, List.getElem?_map]; simp [InWindow]
      | some b => simp at hss
    | some a =>
      cases stop with
      | none => simp at hss
      | some b =>
        refine ⟨_, rfl, by simp, ?_⟩
        intro i; rw [mem_maskIdx]; simp [InWindow]
  have htoas : (sortData p).toas = p.toas := by unfold sortData; split <;> rfl
  have hplan : ∃ pl, filterPlanets (sortData p) mask = .ok pl := by
    have e : (sortData p).planetssb = p.planetssb := by unfold sortData; split <;> rfl
    cases hpl : p.planetssb with
    | none => simp [filterPlanets, e, hpl]
    | some a =>
      obtain ⟨_, -, -, -, -, -, -, -, -, -, h2, -⟩ := C13_one_permutation p h hs
      obtain ⟨o, ho, -⟩ := h2 a hpl
      simp [filterPlanets, e, hpl, ho, Except.map]
  obtain ⟨pl, hpl⟩ := hplan
  set dmxMask := (colSums ncol (maskSelect p.designmatrix mask)).map fun s => decide (s ≠ 0)
    with hdmx
  set T := maskSelect p.toas mask with hT
  have hTl : ∀ {α : Type} (raw : List α), raw.length = p.toas.length →
      (maskSelect raw mask).length = T.length := by
    intro α raw hr
    rw [(picks_mask (l := raw) (by rw [hml, hr])).length_eq, (picks_mask (l := p.toas) hml).length_eq]
  obtain ⟨q, hq⟩ := picks_exists (maskIdx mask) (argsortStable T) fun i hi => by
    rw [← (picks_mask (l := p.toas) hml).length_eq]; exact (mem_argsortStable _ _).1 hi
  have hread : ∀ {α : Type} (raw : List α), raw.length = p.toas.length →
      ReadsAs raw q (gather (maskSelect raw mask) (argsortStable T)) := by
    intro α raw hr
    obtain ⟨o, ho⟩ := picks_exists (maskSelect raw mask) (argsortStable T) fun i hi => by
      rw [hTl raw hr]; exact (mem_argsortStable _ _).1 hi
    exact ⟨o, (gather_ok_iff _ _ _).2 ho, (picks_mask (by rw [hml, hr])).trans ho hq⟩
  have hqperm : q.Perm (maskIdx mask) := by
    have h1 : (q.map some).Perm ((maskIdx mask).map some) := by
      have e := picks_range (maskIdx mask)
      unfold Picks at hq e
      rw [hq, e]
      apply List.Perm.map
      rw [← (picks_mask (l := p.toas) hml).length_eq]
      exact perm_argsortStable T
    exact (List.map_perm_map_iff (Option.some_injective _)).1 h1
  have hdef : filterData ncol start stop (sortData p) = .ok (sortData { sortData p with
      toas := T
      toaerrs := maskSelect p.toaerrs mask
      residuals := maskSelect p.residuals mask
      ssbfreqs := maskSelect p.ssbfreqs mask
      designmatrix := (maskSelect p.designmatrix mask).map fun row => maskSelect row dmxMask
      flags := p.flags.map fun kv => (kv.1, maskSelect kv.2 mask)
      planetssb := pl }) := by
    unfold filterData
    rw [htoas, hmask]
    simp only [bind, Except.bind, hpl]
    simp only [sortData, hs, if_true]
    rfl
  refine ⟨_, q, maskIdx dmxMask, hdef, timeOrdered_comp (pairwise_maskIdx mask) hmm
    (picks_mask hml) (timeOrdered_argsort T) hq, ?_⟩
  · simp only [Psr.getToas, Psr.getToaerrs, Psr.getResiduals, Psr.getFreqs,
      Psr.getMmat, Psr.getFlag, sortData, hs, if_true, applyIdx]
    refine ⟨hread _ rfl, hread _ h.toaerrs, hread _ h.residuals, hread _ h.ssbfreqs, ?_,
      pairwise_maskIdx _, ?_, ?_, ?_⟩
    · have e : (maskSelect p.designmatrix mask).map (fun row => maskSelect row dmxMask)
          = maskSelect (restrictCols (maskIdx dmxMask) p.designmatrix) mask := by
        have hmap : ∀ (l : List (List K)) (m : Mask), (∀ r ∈ l, r.length = ncol) →
            (maskSelect l m).map (fun row => maskSelect row dmxMask)
              = maskSelect (restrictCols (maskIdx dmxMask) l) m := by
          intro l
          induction l with
          | nil => intro m _; simp [restrictCols, maskSelect]
          | cons r t ih =>
            intro m hl
            cases m with
            | nil => simp [maskSelect, restrictCols]
            | cons b m =>
              have ih' := ih m fun r hr => hl r (by simp [hr])
              unfold restrictCols at ih' ⊢
              cases b with
              | true =>
                simp only [maskSelect, List.map_cons, ih']
                rw [getD_maskSelect_eq r dmxMask (by
                  rw [hl r (by simp)]; simp [dmxMask, colSums])]
              | false => simp only [maskSelect, List.map_cons, ih']
        exact hmap _ _ hcol
      rw [e]
      exact hread _ (by simp [restrictCols, h.designmatrix])
    · intro c
      rw [mem_maskIdx]
      have hdml : mask.length = p.designmatrix.length := by rw [hml, h.designmatrix]
      have hcs : ((maskSelect p.designmatrix mask).map fun r => r.getD c 0).sum
          = (q.map fun i => (p.designmatrix.getD i []).getD c 0).sum := by
        rw [(hqperm.map _).sum_eq]
        congr 1
        apply List.map_injective_iff.2 (Option.some_injective _)
        have e := picks_mask hdml
        unfold Picks at e
        have e2 : ((maskSelect p.designmatrix mask).map fun r => r.getD c 0).map some
            = ((maskSelect p.designmatrix mask).map some).map (Option.map fun r => r.getD c 0) := by
          simp [List.map_map, Function.comp_def]
        rw [e2, e, List.map_map, List.map_map]
        apply List.map_congr_left
        intro i hi
        have hi' : i < p.designmatrix.length := by
          rw [← hdml]; exact (List.getElem?_eq_some_iff.1 ((mem_maskIdx mask i).1 hi)).1
        simp [List.getElem?_eq_getElem hi']
      rw [hdmx]
      by_cases hc : c < ncol
      · simp only [colSums, List.map_map, List.getElem?_map, List.getElem?_range hc, Option.map_some,
          Function.comp_apply, Option.some.injEq, decide_eq_true_iff, hc, true_and, hcs]
      · have : (List.map (fun s : K => decide (s ≠ 0))
            (colSums ncol (maskSelect p.designmatrix mask)))[c]? = none := by
          apply List.getElem?_eq_none; simp [colSums]; omega
        rw [this]; simp [hc]
    · intro name vals hv
      have hg : Dict.get? (p.flags.map fun kv => (kv.1, maskSelect kv.2 mask)) name
          = some (maskSelect vals mask) := by
        have : ∀ d : Dict String (List String), Dict.get? d name = some vals →
            Dict.get? (d.map fun kv => (kv.1, maskSelect kv.2 mask)) name
              = some (maskSelect vals mask) := by
          intro d
          induction d with
          | nil => intro h; simp at h
          | cons kv t ih =>
            intro h
            rw [Dict.get?_cons] at h
            rw [List.map_cons, Dict.get?_cons]
            split at h
            · next hk => cases h; simp [hk]
            · next hk => simp only [hk, if_false]; exact ih h
        exact this _ hv
      simp only [Dict.get!, hg]
      exact hread vals (h.flags _ (Dict.mem_of_get?_eq_some hv))
    · intro hsorted a ha
      have e : (sortData p).planetssb = some a := by unfold sortData; split <;> exact ha
      have e2 : (sortData p).getPlanetssb = .ok a := by
        have : (sortData p).isort = some (List.range p.toas.length) := by
          simp [sortData, hs, argsortStable_of_sorted hsorted]
        simp only [Psr.getPlanetssb, e, this, applyIdx]
        rw [gather_ok_iff, ← h.planetssb a ha]
        exact picks_range a
      unfold filterPlanets at hpl
      rw [e] at hpl
      simp only [e2, Except.map, Except.ok.injEq] at hpl
      simp only [Psr.getPlanetssb, ← hpl]
      exact hread a (h.planetssb a ha)

/-- C16: giving only one end of the window raises `TypeError`. -/
theorem C16_one_sided_raises (ncol : Nat) (start stop : Option K) (p : Psr K V)
    (h : start.isSome ≠ stop.isSome) : filterData ncol start stop p = .error .typeError := by
  cases start <;> cases stop <;> simp_all [filterData, windowMask, bind, Except.bind]

/-- C16 is false as stated for the telescope / site-time arrays: after slicing away the first of
two TOAs the public TOA is the second one but the reported site time is that of the first. -/
theorem C16_site_times_false :
    ∃ (p p' : Psr ℚ Nat), Aligned p ∧ p.sort = true ∧ p.stoas = p.toas ∧
      filterData 2 (some 2) (some 3) (sortData p) = .ok p' ∧
      p'.getToas = .ok [172800] ∧ p'.getStoas = .ok [86400] := by
  refine ⟨demo [86400, 172800] [[1, 2], [1, 3]], _, ⟨rfl, rfl, rfl, rfl, rfl, rfl, rfl, ?_, ?_, ?_⟩,
    rfl, rfl, rfl, by decide +kernel, by decide +kernel⟩
  · intro kv hkv; simp [demo] at hkv; subst hkv; rfl
  · intro a ha; cases ha; rfl
  · intro a ha; cases ha; rfl

/-- C16 is false for planet positions when the file is not in time order: with file order
(day 3, day 1, day 2), planet rows numbered by file position, slicing to days 1-2 pairs the
TOA of day 1 (file row 1) with planet row 0. -/
theorem C16_planets_false :
    ∃ (p p' : Psr ℚ Nat), Aligned p ∧ p.sort = true ∧ p.toas = [259200, 86400, 172800] ∧
      p.planetssb = some [0, 1, 2] ∧
      filterData 2 (some 1) (some 2) (sortData p) = .ok p' ∧
      p'.getToas = .ok [86400, 172800] ∧ p'.getPlanetssb = .ok [2, 0] := by
  refine ⟨demo [259200, 86400, 172800] [[1, 2], [1, 3], [1, 4]], _,
    ⟨rfl, rfl, rfl, rfl, rfl, rfl, rfl, ?_, ?_, ?_⟩,
    rfl, rfl, rfl, rfl, by decide +kernel, by decide +kernel⟩
  · intro kv hkv; simp [demo] at hkv; subst hkv; rfl
  · intro a ha; cases ha; rfl
  · intro a ha; cases ha; rfl

/-! ## Design-matrix columns (C17) -/

/-- C17 is false as stated: a design-matrix column with entries 1 and -1 sums to zero and is
dropped although it constrains a parameter; the list of fitted parameters keeps its name. -/
theorem C17_columns_false :
    ∃ (p p' : Psr ℚ Nat), Aligned p ∧ p.fitpars.length = 2 ∧ p.designmatrix = [[1, 1], [1, -1]] ∧
      filterData 2 none none (sortData p) = .ok p' ∧
      p'.getMmat = .ok [[1], [1]] ∧ p'.fitpars = p.fitpars := by
  refine ⟨demo [86400, 172800] [[1, 1], [1, -1]], _, ⟨rfl, rfl, rfl, rfl, rfl, rfl, rfl, ?_, ?_, ?_⟩,
    rfl, rfl, rfl, by decide +kernel, rfl⟩
  · intro kv hkv; simp [demo] at hkv; subst hkv; rfl
  · intro a ha; cases ha; rfl
  · intro a ha; cases ha; rfl

theorem sum_ne_zero_iff_of_nonneg [IsStrictOrderedRing K] (l : List K) (h : ∀ x ∈ l, 0 ≤ x) :
    l.sum ≠ 0 ↔ ∃ x ∈ l, x ≠ 0 := by
  induction l with
  | nil => simp
  | cons a t ih =>
    have ih' := ih fun x hx => h x (by simp [hx])
    have ht : 0 ≤ t.sum := List.sum_nonneg fun x hx => h x (by simp [hx])
    have ha := h a (by simp)
    rw [List.sum_cons]
    constructor
    · intro hne
      by_cases h0 : a = 0
      · obtain ⟨x, hx, hx0⟩ := ih'.1 (by rw [h0, zero_add] at hne; exact hne)
        exact ⟨x, by simp [hx], hx0⟩
      · exact ⟨a, by simp, h0⟩
    · rintro ⟨x, hx, hx0⟩ hsum
      rcases List.mem_cons.1 hx with rfl | hx
      · apply hx0; linarith
      · apply ih'.2 ⟨x, hx, hx0⟩; linarith

/-- C17 (partial): for a column whose entries are non-negative (offset, jumps, DMX windows) the
column is kept by the time slice exactly when some surviving TOA has a non-zero entry.
Missing: columns of mixed sign, and the list of parameter names, which is not updated
(`C17_columns_false`). -/
theorem C17_columns_partial [IsStrictOrderedRing K] (ncol : Nat) (start stop : Option K) (p : Psr K V)
    (h : Aligned p) (hs : p.sort = true) (hss : start.isSome = stop.isSome)
    (hcol : ∀ r ∈ p.designmatrix, r.length = ncol) (c : Nat) (hc : c < ncol)
    (hnn : ∀ r ∈ p.designmatrix, 0 ≤ r.getD c 0) :
    ∃ (p' : Psr K V) (q cols : List Nat),
      filterData ncol start stop (sortData p) = .ok p' ∧
      TimeOrdered p.toas (InWindow start stop) q ∧
      ReadsAs (restrictCols cols p.designmatrix) q p'.getMmat ∧
      (c ∈ cols ↔ ∃ i ∈ q, (p.designmatrix.getD i []).getD c 0 ≠ 0) := by
  obtain ⟨p', q, cols, h1, h2, -, -, -, -, h3, -, h4, -, -⟩ :=
    C16_filter_partial ncol start stop p h hs hss hcol
  refine ⟨p', q, cols, h1, h2, h3, ?_⟩
  rw [h4, sum_ne_zero_iff_of_nonneg]
  · simp [hc]
  · intro x hx
    obtain ⟨i, hi, rfl⟩ := List.mem_map.1 hx
    by_cases hil : i < p.designmatrix.length
    · have := hnn _ (List.getElem_mem hil)
      simpa [List.getElem?_eq_getElem hil] using this
    · simp [List.getElem?_eq_none (not_lt.1 hil)]

example : (filterData 2 (some 1) (some 2)
    (sortData (demo [259200, 86400, 172800] [[1, 2], [1, 0], [1, 0]])) >>= fun p' => p'.getMmat)
      = .ok [[1], [1]] := by decide +kernel

/-! ## Backend flags (C18) -/

/-- The documented ranking: group, g, sys, i, f, then frontend+backend. -/
def rankedFlag (flags : Dict String FlagCol) (i : Nat) : String :=
  let val := fun name => ((Dict.get? flags name).bind fun c => c.vals[i]?).getD ""
  ((["group", "g", "sys", "i", "f"].map val).find? (· ≠ "")).getD (feBe (val "fe") (val "be"))

theorem flagRound_spec (w : Nat) (flags : Dict String FlagCol) (n : Nat)
    (hlen : ∀ kv ∈ flags, kv.2.vals.length = n)
    (hw : ∀ kv ∈ flags, ∀ s ∈ kv.2.vals, s.toList.length ≤ w)
    (ret : List String) (hret : ret.length = n) (hrw : ∀ s ∈ ret, s.toList.length ≤ w) (flag : String) :
    (flagRound w flags ret flag).length = n ∧
    (∀ s ∈ flagRound w flags ret flag, s.toList.length ≤ w) ∧
    ∀ (i : Nat), i < n → (flagRound w flags ret flag)[i]? =
      let v := ((Dict.get? flags flag).bind fun c => c.vals[i]?).getD ""
      some (if v = "" then (ret[i]?).getD "" else v) := by
  unfold flagRound
  cases hg : Dict.get? flags flag with
  | none =>
    refine ⟨hret, hrw, ?_⟩
    intro i hi
    simp [List.getElem?_eq_getElem (hret ▸ hi)]
  | some c =>
    have hm := Dict.mem_of_get?_eq_some hg
    have hl : c.vals.length = n := hlen _ hm
    have hww := hw _ hm
    have hval : ∀ (i : Nat), i < n → (List.zipWith (fun r f => trunc w (if f = "" then r else f)) ret c.vals)[i]? =
        some (if (c.vals[i]?).getD "" = "" then (ret[i]?).getD "" else (c.vals[i]?).getD "") := by
      intro i hi
      have h1 : i < ret.length := hret ▸ hi
      have h2 : i < c.vals.length := hl ▸ hi
      rw [List.getElem?_zipWith, List.getElem?_eq_getElem h1, List.getElem?_eq_getElem h2]
      simp only [Option.getD_some, Option.some.injEq]
      apply String_trunc_of_le
      split
      · exact hrw _ (List.getElem_mem h1)
      · exact hww _ (List.getElem_mem h2)
    refine ⟨by simp [hret]; omega, ?_, ?_⟩
    · intro s hs
      obtain ⟨i, hi, rfl⟩ := List.getElem_of_mem hs
      rw [List.length_zipWith, hret] at hi
      have hi' : i < n := by omega
      have h1 : i < ret.length := hret ▸ hi'
      have h2 : i < c.vals.length := hl ▸ hi'
      rw [List.getElem_zipWith]
      rw [String_trunc_of_le]
      · split
        · exact hrw _ (List.getElem_mem h1)
        · exact hww _ (List.getElem_mem h2)
      · split
        · exact hrw _ (List.getElem_mem h1)
        · exact hww _ (List.getElem_mem h2)
    · intro i hi
      rw [hval i hi]; rfl

theorem le_foldl_max (l : List Nat) (a : Nat) : a ≤ l.foldl max a ∧ ∀ x ∈ l, x ≤ l.foldl max a := by
  induction l generalizing a with
  | nil => simp
  | cons b t ih =>
    rw [List.foldl_cons]
    obtain ⟨h1, h2⟩ := ih (max a b)
    refine ⟨by omega, ?_⟩
    intro x hx
    rcases List.mem_cons.1 hx with rfl | hx
    · omega
    · exact h2 x hx

/-- C18 (partial): when the widest flag column is wide enough for every frontend+backend
concatenation, the backend flag of each TOA is its first non-empty flag in the documented order
group, g, sys, i, f, frontend_backend.  Missing: without the width condition the concatenation
is truncated (`C18_truncation_false`). -/
theorem C18_ranked_partial (n : Nat) (flags : Dict String FlagCol) (hne : flags ≠ [])
    (hlen : ∀ kv ∈ flags, kv.2.vals.length = n)
    (hw : ∀ kv ∈ flags, ∀ s ∈ kv.2.vals, s.toList.length ≤ kv.2.width)
    (hwide : ∀ fe be, Dict.get? flags "fe" = some fe → Dict.get? flags "be" = some be →
      ∀ (i : Nat), i < n → ∃ kv ∈ flags,
        (feBe ((fe.vals[i]?).getD "") ((be.vals[i]?).getD "")).toList.length ≤ kv.2.width) :
    ∃ out, backendFlagsRaw n flags = .ok out ∧ out.length = n ∧
      ∀ (i : Nat), i < n → out[i]? = some (rankedFlag flags i) := by
  cases hfl : flags with
  | nil => exact absurd hfl hne
  | cons f0 fs =>
    rw [← hfl]
    have hdef : backendFlagsRaw n flags =
        .ok (["f", "i", "sys", "g", "group"].foldl
          (flagRound ((flags.map fun kv => kv.2.width).foldl max 0) flags)
          (match Dict.get? flags "fe", Dict.get? flags "be" with
            | some fe, some be => List.zipWith (fun a b =>
                trunc ((flags.map fun kv => kv.2.width).foldl max 0) (feBe a b)) fe.vals be.vals
            | _, _ => List.replicate n "")) := by
      rw [hfl]; rfl
    set w := (flags.map fun kv => kv.2.width).foldl max 0 with hwdef
    have hmax : ∀ kv ∈ flags, kv.2.width ≤ w := fun kv hkv =>
      (le_foldl_max _ 0).2 _ (List.mem_map.2 ⟨kv, hkv, rfl⟩)
    have hw' : ∀ kv ∈ flags, ∀ s ∈ kv.2.vals, s.toList.length ≤ w := fun kv hkv s hs =>
      (hw kv hkv s hs).trans (hmax kv hkv)
    have hfalse : ("" : String).toList.length ≤ w := by simp
    set val := fun (i : Nat) name => ((Dict.get? flags name).bind fun c => c.vals[i]?).getD "" with hval
    obtain ⟨ret0, hr0, hr0l, hr0w, hr0v⟩ : ∃ ret0 : List String,
        (match Dict.get? flags "fe", Dict.get? flags "be" with
            | some fe, some be => List.zipWith (fun a b => trunc w (feBe a b)) fe.vals be.vals
            | _, _ => List.replicate n "") = ret0 ∧ ret0.length = n ∧
          (∀ s ∈ ret0, s.toList.length ≤ w) ∧
          ∀ (i : Nat), i < n → (ret0[i]?).getD "" = feBe (val i "fe") (val i "be") := by
      cases hfe : Dict.get? flags "fe" with
      | none =>
        refine ⟨_, rfl, by simp, ?_, ?_⟩
        · intro s hs; rw [List.eq_of_mem_replicate hs]; exact hfalse
        · intro i hi; simp [hval, hfe, feBe, hi]
      | some fe =>
        cases hbe : Dict.get? flags "be" with
        | none =>
          refine ⟨_, rfl, by simp, ?_, ?_⟩
          · intro s hs; rw [List.eq_of_mem_replicate hs]; exact hfalse
          · intro i hi; simp [hval, hbe, feBe, hi]
        | some be =>
          have l1 := hlen _ (Dict.mem_of_get?_eq_some hfe)
          have l2 := hlen _ (Dict.mem_of_get?_eq_some hbe)
          simp only at l1 l2
          have hv : ∀ (i : Nat) (h1 : i < fe.vals.length) (h2 : i < be.vals.length),
              (feBe fe.vals[i] be.vals[i]).toList.length ≤ w := by
            intro i h1 h2
            obtain ⟨kv, hkv, hle⟩ := hwide fe be hfe hbe i (l1 ▸ h1)
            rw [List.getElem?_eq_getElem h1, List.getElem?_eq_getElem h2] at hle
            exact hle.trans (hmax kv hkv)
          refine ⟨_, rfl, by simp [l1, l2], ?_, ?_⟩
          · intro s hs
            obtain ⟨i, hi, rfl⟩ := List.getElem_of_mem hs
            rw [List.length_zipWith] at hi
            rw [List.getElem_zipWith, String_trunc_of_le (hv i (by omega) (by omega))]
            exact hv i _ _
          · intro i hi
            have h1 : i < fe.vals.length := by omega
            have h2 : i < be.vals.length := by omega
            rw [List.getElem?_zipWith, List.getElem?_eq_getElem h1, List.getElem?_eq_getElem h2]
            simp [hval, hfe, hbe, List.getElem?_eq_getElem h1, List.getElem?_eq_getElem h2,
              String_trunc_of_le (hv i h1 h2)]
    rw [hdef, hr0]
    have step := flagRound_spec w flags n hlen hw'
    obtain ⟨l1, w1, v1⟩ := step ret0 hr0l hr0w "f"
    obtain ⟨l2, w2, v2⟩ := step _ l1 w1 "i"
    obtain ⟨l3, w3, v3⟩ := step _ l2 w2 "sys"
    obtain ⟨l4, w4, v4⟩ := step _ l3 w3 "g"
    obtain ⟨l5, w5, v5⟩ := step _ l4 w4 "group"
    refine ⟨_, rfl, by simpa using l5, ?_⟩
    intro i hi
    simp only [List.foldl_cons, List.foldl_nil]
    rw [v5 i hi, v4 i hi, v3 i hi, v2 i hi, v1 i hi, hr0v i hi]
    simp only [Option.getD_some, rankedFlag, List.map_cons, List.map_nil]
    congr 1
    simp only [hval]
    by_cases h5 : ((Dict.get? flags "group").bind fun c => c.vals[i]?).getD "" = "" <;>
    by_cases h4 : ((Dict.get? flags "g").bind fun c => c.vals[i]?).getD "" = "" <;>
    by_cases h3 : ((Dict.get? flags "sys").bind fun c => c.vals[i]?).getD "" = "" <;>
    by_cases h2 : ((Dict.get? flags "i").bind fun c => c.vals[i]?).getD "" = "" <;>
    by_cases h1 : ((Dict.get? flags "f").bind fun c => c.vals[i]?).getD "" = "" <;>
    simp [h1, h2, h3, h4, h5]

/-- C18 is false in general: with only frontend and backend flags, two TOAs of different
backends but one frontend receive the same backend flag, because the concatenation is cut to
the width of the wider of the two columns. -/
theorem C18_truncation_false :
    ∃ flags : Dict String FlagCol,
      (∀ kv ∈ flags, kv.2.vals.length = 2) ∧
      (∀ kv ∈ flags, ∀ s ∈ kv.2.vals, s.toList.length ≤ kv.2.width) ∧
      rankedFlag flags 0 = "Rcvr_800_GASP" ∧ rankedFlag flags 1 = "Rcvr_800_GUPPI" ∧
      backendFlagsRaw 2 flags = .ok ["Rcvr_800", "Rcvr_800"] := by
  refine ⟨[("fe", ⟨8, ["Rcvr_800", "Rcvr_800"]⟩), ("be", ⟨5, ["GASP", "GUPPI"]⟩)], ?_, ?_,
    by decide +kernel, by decide +kernel, by decide +kernel⟩
  · intro kv hkv; simp at hkv; rcases hkv with rfl | rfl <;> rfl
  · intro kv hkv s hs
    simp at hkv
    rcases hkv with rfl | rfl <;> simp at hs
    · subst hs; decide +kernel
    · rcases hs with rfl | rfl <;> decide +kernel

/-- C18: a pulsar without any flag raises `ValueError`. -/
theorem C18_no_flags_raises (n : Nat) : backendFlagsRaw n [] = .error .valueError := rfl

example : backendFlagsRaw 2 [("fe", ⟨8, ["Rcvr_800", "L"]⟩), ("be", ⟨5, ["GASP", ""]⟩),
    ("f", ⟨14, ["", "L-wide_PUPPI"]⟩), ("group", ⟨1, ["", ""]⟩)]
      = .ok ["Rcvr_800_GASP", "L-wide_PUPPI"] := by decide +kernel

/-- The hypotheses of `C18_ranked_partial` for two TOAs, one with a group and one with frontend and backend only. -/
example : ∃ out, backendFlagsRaw 2 [("group", ⟨5, ["ABC", ""]⟩), ("fe", ⟨2, ["L", "S"]⟩), ("be", ⟨2, ["X", "Y"]⟩)] = .ok out ∧ out.length = 2 ∧
    ∀ i : Nat, i < 2 → out[i]? = some (rankedFlag [("group", ⟨5, ["ABC", ""]⟩), ("fe", ⟨2, ["L", "S"]⟩), ("be", ⟨2, ["X", "Y"]⟩)] i) := by
  refine C18_ranked_partial 2 _ (by simp) (by simp) (by decide) ?_
  intro fe be h1 h2 i hi
  cases h1
  cases h2
  refine ⟨("group", ⟨5, ["ABC", ""]⟩), by simp, ?_⟩
  obtain rfl | rfl : i = 0 ∨ i = 1 := by omega
  all_goals decide

end Verif.PulsarData
