import Mathlib.Tactic.NormNum
import Mathlib.Tactic.FinCases
import Verif.Model.Distance
import Verif.Lemmas.Dict

/-!
# Distances of pulsars

C157: which distance a pulsar has.
-/

namespace Verif.Distance

open Verif

/-! ## Specification -/

/-- A name with the letter of its epoch. -/
def Full (name : String) : Prop := ∃ s, name.toList = 'J' :: s ∨ name.toList = 'B' :: s

/-- The catalogue lists `v` for a pulsar whose name may lack its letter; the epoch J2000 goes first. -/
def Listed (pdict : Dict String (ℚ × ℚ)) (name : String) (v : ℚ × ℚ) : Prop :=
  (Full name ∧ (name, v) ∈ pdict) ∨ (¬ Full name ∧ (("J" ++ name, v) ∈ pdict ∨ (∀ u, ("J" ++ name, u) ∉ pdict) ∧ ("B" ++ name, v) ∈ pdict))

theorem full_iff {name : String} {c : Char} (h : name.toList.head? = some c) : Full name ↔ c ∈ ['J', 'B'] := by
  obtain ⟨s, hs⟩ : ∃ s, name.toList = c :: s := by
    cases e : name.toList with
    | nil => rw [e] at h; cases h
    | cons a s =>
      rw [e] at h
      cases h
      exact ⟨s, rfl⟩
  rw [Full, hs]
  constructor
  · rintro ⟨t, h | h⟩ <;> cases h <;> simp
  · intro hc
    rcases List.mem_pair.1 hc with rfl | rfl
    · exact ⟨s, .inl rfl⟩
    · exact ⟨s, .inr rfl⟩

variable {pdict : Dict String (ℚ × ℚ)} {name : String}

theorem get_listed (hn : (pdict.map Prod.fst).Nodup) (k : String) : (∃ v, (k, v) ∈ pdict ∧ pdict.get? k = some v) ∨ (∀ u, (k, u) ∉ pdict) ∧ pdict.get? k = none := by
  cases h : pdict.get? k with
  | some v => exact .inl ⟨v, Dict.mem_of_get?_eq_some h, rfl⟩
  | none =>
    refine .inr ⟨fun u hu => ?_, rfl⟩
    rw [Dict.get?_of_mem hn hu] at h
    cases h

/-- C157: a pulsar has the distance that is listed for it. -/
theorem C157_listed (hn : (pdict.map Prod.fst).Nodup) (h0 : name ≠ "") {v : ℚ × ℚ} (h : Listed pdict name v) : ∃ w, getPdist pdict name = .ok (v, w) := by
  obtain ⟨c, hc⟩ : ∃ c, name.toList.head? = some c := by
    cases e : name.toList with
    | nil => exact absurd (String.toList_eq_nil_iff.1 e) h0
    | cons a s => exact ⟨a, rfl⟩
  have hf := full_iff hc
  unfold getPdist
  rw [hc]
  rcases h with ⟨h1, h2⟩ | ⟨h1, h2 | ⟨h2, h3⟩⟩
  · simp only [not_not.2 (hf.1 h1), if_false, Dict.get?_of_mem hn h2, Option.getD_some]
    exact ⟨_, rfl⟩
  · simp only [mt hf.2 h1, not_false_iff, if_true, Dict.get?_of_mem hn h2]
    exact ⟨_, rfl⟩
  · rcases get_listed hn ("J" ++ name) with ⟨u, hu, -⟩ | ⟨-, hg⟩
    · exact absurd hu (h2 u)
    · simp only [mt hf.2 h1, not_false_iff, if_true, hg, Dict.get?_of_mem hn h3, Option.getD_some]
      exact ⟨_, rfl⟩

/-- C157: a pulsar that is not listed is at 1 kpc, give or take a fifth, with a warning. -/
theorem C157_unlisted (hn : (pdict.map Prod.fst).Nodup) (h0 : name ≠ "") (h : ∀ v, ¬ Listed pdict name v) : getPdist pdict name = .ok ((1, 1 / 5), true) := by
  obtain ⟨c, hc⟩ : ∃ c, name.toList.head? = some c := by
    cases e : name.toList with
    | nil => exact absurd (String.toList_eq_nil_iff.1 e) h0
    | cons a s => exact ⟨a, rfl⟩
  have hf := full_iff hc
  have hu : unknown = (1, 1 / 5) := by
    unfold unknown
    norm_num
  unfold getPdist
  rw [hc, ← hu]
  by_cases h1 : Full name
  · rcases get_listed hn name with ⟨u, h2, -⟩ | ⟨-, hg⟩
    · exact absurd (.inl ⟨h1, h2⟩) (h u)
    · simp [not_not.2 (hf.1 h1), hg, hf.1 h1]
  · rcases get_listed hn ("J" ++ name) with ⟨u, h2, -⟩ | ⟨h2, hg⟩
    · exact absurd (.inr ⟨h1, .inl h2⟩) (h u)
    · rcases get_listed hn ("B" ++ name) with ⟨u, h3, -⟩ | ⟨-, hg'⟩
      · exact absurd (.inr ⟨h1, .inr ⟨h2, h3⟩⟩) (h u)
      · simp only [mt hf.2 h1, not_false_iff, if_true, hg, hg', Option.getD_none, decide_true]

theorem catalogue_nodup : (catalogue.map Prod.fst).Nodup := by
  simp [catalogue]

/-- Every distance of the catalogue is positive, with a positive uncertainty below it, and none is that of unlisted pulsars. -/
theorem catalogue_good : ∀ x ∈ catalogue, 0 < x.2.2 ∧ x.2.2 < x.2.1 ∧ x.2 ≠ (1, 1 / 5) := by
  simp only [catalogue, List.forall_mem_cons]
  norm_num

/-- C157: with the catalogue of the code the warning tells the unlisted pulsars, and a distance is always positive. -/
theorem C157_warning (h0 : name ≠ "") : ∃ d w, getPdist catalogue name = .ok (d, w) ∧ (w = true ↔ ∀ v, ¬ Listed catalogue name v) ∧ 0 < d.2 ∧ d.2 < d.1 := by
  by_cases h : ∃ v, Listed catalogue name v
  · obtain ⟨v, hv⟩ := h
    obtain ⟨w, hw⟩ := C157_listed catalogue_nodup h0 hv
    obtain ⟨k, hk⟩ : ∃ k, (k, v) ∈ catalogue := by
      rcases hv with ⟨-, h⟩ | ⟨-, h | ⟨-, h⟩⟩ <;> exact ⟨_, h⟩
    obtain ⟨g1, g2, g3⟩ := catalogue_good _ hk
    refine ⟨v, w, hw, ⟨fun hw' => ?_, fun h => absurd hv (h v)⟩, g1, g2⟩
    exfalso
    have hu : unknown = (1, 1 / 5) := by
      unfold unknown
      norm_num
    have : w = decide (v = unknown) := by
      unfold getPdist at hw
      split at hw
      · cases hw
      · simp only [Except.ok.injEq, Prod.mk.injEq] at hw
        rw [← hw.2, hw.1]
    rw [hw', hu] at this
    exact g3 (of_decide_eq_true this.symm)
  · rw [not_exists] at h
    exact ⟨_, _, C157_unlisted catalogue_nodup h0 h, by simp [h], by norm_num, by norm_num⟩

/-- C157: a name without letter stands for the one with J, or else for the one with B. -/
theorem C157_letter (hn : (pdict.map Prod.fst).Nodup) (h0 : name ≠ "") (h : ¬ Full name) :
    getPdist pdict name = getPdist pdict ("J" ++ name) ∨ getPdist pdict name = getPdist pdict ("B" ++ name) := by
  have fJ : Full ("J" ++ name) := ⟨name.toList, .inl (by simp)⟩
  have fB : Full ("B" ++ name) := ⟨name.toList, .inr (by simp)⟩
  have nJ : "J" ++ name ≠ "" := by
    intro e
    have := congrArg String.toList e
    simp at this
  have nB : "B" ++ name ≠ "" := by
    intro e
    have := congrArg String.toList e
    simp at this
  have key : ∀ {a b : String} {v : ℚ × ℚ} {x y : Bool}, getPdist pdict a = .ok (v, x) → getPdist pdict b = .ok (v, y) → getPdist pdict a = getPdist pdict b := by
    intro a b v x y ha hb
    have : ∀ {a : String} {x : Bool}, getPdist pdict a = .ok (v, x) → x = decide (v = unknown) := by
      intro a x ha
      unfold getPdist at ha
      split at ha
      · cases ha
      · simp only [Except.ok.injEq, Prod.mk.injEq] at ha
        rw [← ha.2, ha.1]
    rw [ha, hb, this ha, this hb]
  rcases get_listed hn ("J" ++ name) with ⟨u, h2, -⟩ | ⟨h2, -⟩
  · obtain ⟨x, hx⟩ := C157_listed hn h0 (.inr ⟨h, .inl h2⟩)
    obtain ⟨y, hy⟩ := C157_listed hn nJ (.inl ⟨fJ, h2⟩)
    exact .inl (key hx hy)
  · rcases get_listed hn ("B" ++ name) with ⟨u, h3, -⟩ | ⟨h3, -⟩
    · obtain ⟨x, hx⟩ := C157_listed hn h0 (.inr ⟨h, .inr ⟨h2, h3⟩⟩)
      obtain ⟨y, hy⟩ := C157_listed hn nB (.inl ⟨fB, h3⟩)
      exact .inr (key hx hy)
    · refine .inl ?_
      rw [C157_unlisted hn h0, C157_unlisted hn nJ]
      · rintro v (⟨-, h⟩ | ⟨h, -⟩)
        · exact h2 v h
        · exact h fJ
      · rintro v (⟨h', -⟩ | ⟨-, h | ⟨-, h⟩⟩)
        · exact h h'
        · exact h2 v h
        · exact h3 v h

/-- C157 is false for pulsars with two names: B1953+29 is listed at 5.39 kpc, and the same pulsar called J1955+2908 is put at 1 kpc. -/
theorem C157_names_false : getPdist catalogue "B1953+29" = .ok ((5.39, 1.1), false) ∧ getPdist catalogue "J1955+2908" = .ok ((1, 1 / 5), true) := by
  constructor
  · obtain ⟨d, w, h1, h2, -⟩ := C157_warning (name := "B1953+29") (by simp)
    have hl : Listed catalogue "B1953+29" (5.39, 1.1) := .inl ⟨⟨_, .inr rfl⟩, by simp [catalogue]⟩
    obtain ⟨w', h3⟩ := C157_listed catalogue_nodup (by simp) hl
    rw [h1] at h3
    obtain ⟨rfl, rfl⟩ : d = (5.39, 1.1) ∧ w = w' := by simpa using h3
    have : w = false := by
      rw [← Bool.not_eq_true, h2]
      exact fun h => h _ hl
    rw [h1, this]
  · refine C157_unlisted catalogue_nodup (by simp) ?_
    rintro v (⟨-, h⟩ | ⟨h, -⟩)
    · simp [catalogue] at h
    · exact h ⟨_, .inl rfl⟩

/-- An empty name raises `IndexError`. -/
theorem C157_empty : getPdist pdict "" = .error .indexError := rfl

example : Listed catalogue "1713+0747" (1.05, 0.06) := by
  refine .inr ⟨?_, .inl ?_⟩
  · rintro ⟨s, h | h⟩ <;> simp at h
  · simp [catalogue]

example : ∃ w, getPdist catalogue "1713+0747" = .ok ((1.05, 0.06), w) := C157_listed catalogue_nodup (by simp) (by
  refine .inr ⟨?_, .inl ?_⟩
  · rintro ⟨s, h | h⟩ <;> simp at h
  · simp [catalogue])

end Verif.Distance
