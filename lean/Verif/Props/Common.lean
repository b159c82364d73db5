import Verif.Model.Common
import Verif.Props.Bases

/-!
# The span of common Fourier processes: C96
-/

namespace Verif.Common

open Verif Verif.Bases

variable {κ : Type} [DecidableEq κ]

/-- The TOAs of the pulsars for which the class has made a signal. -/
def AllToas (c : Cls κ) : Set ℝ := {x | ∃ s ∈ c.insts, x ∈ s.toas}

theorem amin_ok {l : List ℝ} (h : l ≠ []) : ∃ m, amin l = .ok m ∧ IsLeast {x | x ∈ l} m := by
  cases l with
  | nil => exact absurd rfl h
  | cons t ts =>
    refine ⟨_, rfl, ?_⟩
    have e : {x | x ∈ t :: ts} = {x | x = t ∨ x ∈ ts} := by ext x; simp
    rw [e]; exact foldl_min t ts

theorem amax_ok {l : List ℝ} (h : l ≠ []) : ∃ m, amax l = .ok m ∧ IsGreatest {x | x ∈ l} m := by
  cases l with
  | nil => exact absurd rfl h
  | cons t ts =>
    refine ⟨_, rfl, ?_⟩
    have e : {x | x ∈ t :: ts} = {x | x = t ∨ x ∈ ts} := by ext x; simp
    rw [e]; exact foldl_max t ts

/-- The lists of the class hold a TOA of every pulsar that is first (last), and nothing but TOAs. -/
def Inv (c : Cls κ) : Prop :=
  c.tmin.length = c.insts.length ∧ c.tmax.length = c.insts.length ∧
  (∀ x ∈ AllToas c, ∃ y ∈ c.tmin, y ≤ x) ∧ (∀ y ∈ c.tmin, y ∈ AllToas c) ∧
  (∀ x ∈ AllToas c, ∃ y ∈ c.tmax, x ≤ y) ∧ (∀ y ∈ c.tmax, y ∈ AllToas c)

theorem inv_empty : Inv ({} : Cls κ) := by simp [Inv, AllToas]

theorem allToas_new {c c' : Cls κ} {toas : List ℝ} {T : Option ℝ} (h : new T c toas = .ok c') :
    c'.insts = c.insts ++ [{ toas := toas }] ∧ AllToas c' = AllToas c ∪ {x | x ∈ toas} := by
  have e : c'.insts = c.insts ++ [{ toas := toas }] := by
    cases T with
    | some t => simp only [new, Except.ok.injEq] at h; rw [← h]
    | none =>
      cases toas with
      | nil => simp [new, amin, bind, Except.bind] at h
      | cons t ts => simp only [new, amin, amax, bind, Except.bind, Except.ok.injEq] at h; rw [← h]
  refine ⟨e, ?_⟩
  ext x
  simp [AllToas, e, or_and_right, exists_or]

theorem inv_new {c c' : Cls κ} {toas : List ℝ} (hi : Inv c) (h : new none c toas = .ok c') : Inv c' := by
  obtain ⟨e, eA⟩ := allToas_new h
  obtain ⟨i1, i2, i3, i4, i5, i6⟩ := hi
  have h0 : toas ≠ [] := by
    rintro rfl
    simp [new, amin, bind, Except.bind] at h
  obtain ⟨lo, hlo, hl1, hl2⟩ := amin_ok h0
  obtain ⟨hi, hhi, hh1, hh2⟩ := amax_ok h0
  simp only [new, hlo, hhi, bind, Except.bind, Except.ok.injEq] at h
  subst h
  refine ⟨by simp [i1], by simp [i2], ?_, ?_, ?_, ?_⟩
  · intro x hx
    rw [eA] at hx
    rcases hx with hx | hx
    · obtain ⟨y, hy, hyx⟩ := i3 x hx
      exact ⟨y, by simp [hy], hyx⟩
    · exact ⟨lo, by simp, hl2 hx⟩
  · intro y hy
    rw [eA]
    rcases List.mem_append.1 hy with hy | hy
    · exact Or.inl (i4 y hy)
    · rw [List.mem_singleton.1 hy]; exact Or.inr hl1
  · intro x hx
    rw [eA] at hx
    rcases hx with hx | hx
    · obtain ⟨y, hy, hyx⟩ := i5 x hx
      exact ⟨y, by simp [hy], hyx⟩
    · exact ⟨hi, by simp, hh2 hx⟩
  · intro y hy
    rw [eA]
    rcases List.mem_append.1 hy with hy | hy
    · exact Or.inl (i6 y hy)
    · rw [List.mem_singleton.1 hy]; exact Or.inr hh1

/-- With every pulsar's TOAs recorded, the span is that of all of them. -/
theorem clsSpan_inv {c : Cls κ} (hi : Inv c) (h0 : c.insts ≠ []) :
    ∃ lo hi, clsSpan none c = .ok (hi - lo) ∧ IsLeast (AllToas c) lo ∧ IsGreatest (AllToas c) hi := by
  obtain ⟨i1, i2, i3, i4, i5, i6⟩ := hi
  have n1 : c.tmin ≠ [] := by
    intro h; rw [h] at i1; exact h0 (List.length_eq_zero_iff.1 i1.symm)
  have n2 : c.tmax ≠ [] := by
    intro h; rw [h] at i2; exact h0 (List.length_eq_zero_iff.1 i2.symm)
  obtain ⟨lo, hlo, hl1, hl2⟩ := amin_ok n1
  obtain ⟨hi, hhi, hh1, hh2⟩ := amax_ok n2
  refine ⟨lo, hi, by simp [clsSpan, hlo, hhi, bind, Except.bind], ⟨i4 lo hl1, ?_⟩, ⟨i6 hi hh1, ?_⟩⟩
  · intro x hx
    obtain ⟨y, hy, hyx⟩ := i3 x hx
    exact le_trans (hl2 hy) hyx
  · intro x hx
    obtain ⟨y, hy, hyx⟩ := i5 x hx
    exact le_trans hyx (hh2 hy)

/-- What a call of `_construct_basis` can do. -/
theorem construct_ok {T : Option ℝ} {c c' : Cls κ} {i : Nat} {key : κ} (h : construct T c i key = .ok c') :
    ∃ s, c.insts[i]? = some s ∧
      ((s.cache.map Prod.fst = some key ∧ c' = c) ∨
        (s.cache.map Prod.fst ≠ some key ∧ ∃ t, clsSpan T c = .ok t ∧
          c' = { c with insts := c.insts.set i { s with cache := some (key, t) } })) := by
  unfold construct at h
  cases hs : c.insts[i]? with
  | none => rw [hs] at h; simp at h
  | some s =>
    rw [hs] at h
    refine ⟨s, rfl, ?_⟩
    by_cases hk : s.cache.map Prod.fst = some key
    · simp only [hk, if_true, Except.ok.injEq] at h
      exact Or.inl ⟨hk, h.symm⟩
    · simp only [hk, if_false] at h
      cases ht : clsSpan T c with
      | error e => rw [ht] at h; simp [bind, Except.bind] at h
      | ok t =>
        rw [ht] at h
        simp only [bind, Except.bind, Except.ok.injEq] at h
        exact Or.inr ⟨hk, t, rfl, h.symm⟩

theorem set_toas {c : Cls κ} {i : Nat} {s : Inst κ} (hs : c.insts[i]? = some s) (q : Option (κ × ℝ)) :
    (c.insts.set i { s with cache := q }).map Inst.toas = c.insts.map Inst.toas := by
  apply List.ext_getElem?
  intro j
  simp only [List.getElem?_map, List.getElem?_set]
  by_cases h : i = j
  · subst h
    obtain ⟨hlt, he⟩ := List.getElem?_eq_some_iff.1 hs
    simp [hlt, he]
  · simp [h]

theorem allToas_eq (c : Cls κ) : AllToas c = {x | ∃ l ∈ c.insts.map Inst.toas, x ∈ l} := by
  ext x; simp [AllToas]

theorem construct_keeps {T : Option ℝ} {c c' : Cls κ} {i : Nat} {key : κ} (h : construct T c i key = .ok c') :
    c'.tmin = c.tmin ∧ c'.tmax = c.tmax ∧ c'.insts.map Inst.toas = c.insts.map Inst.toas := by
  obtain ⟨s, hs, ⟨-, rfl⟩ | ⟨-, t, -, rfl⟩⟩ := construct_ok h
  · exact ⟨rfl, rfl, rfl⟩
  · exact ⟨rfl, rfl, set_toas hs _⟩

theorem inv_construct {T : Option ℝ} {c c' : Cls κ} {i : Nat} {key : κ} (hi : Inv c) (h : construct T c i key = .ok c') : Inv c' := by
  obtain ⟨e1, e2, e3⟩ := construct_keeps h
  have eA : AllToas c' = AllToas c := by rw [allToas_eq, allToas_eq, e3]
  have el : c'.insts.length = c.insts.length := by simpa using congrArg List.length e3
  unfold Inv
  rw [e1, e2, eA, el]
  exact hi

theorem run_append (T : Option ℝ) (c : Cls κ) (h h' : List (Op κ)) : run T c (h ++ h') = (run T c h).bind fun c => run T c h' := by
  unfold run
  rw [List.foldlM_append]
  rfl

theorem run_cons (T : Option ℝ) (c : Cls κ) (o : Op κ) (h : List (Op κ)) : run T c (o :: h) = (step T c o).bind fun c => run T c h := rfl

theorem inv_run {h : List (Op κ)} {c c' : Cls κ} (hi : Inv c) (hr : run none c h = .ok c') : Inv c' := by
  induction h generalizing c with
  | nil => simp only [run, List.foldlM_nil, pure, Except.pure, Except.ok.injEq] at hr; rw [← hr]; exact hi
  | cons o h ih =>
    rw [run_cons] at hr
    cases hs : step none c o with
    | error e => rw [hs] at hr; simp [Except.bind] at hr
    | ok c1 =>
      rw [hs] at hr
      refine ih ?_ hr
      cases o with
      | new toas => exact inv_new hi hs
      | eval i key => exact inv_construct hi hs

/-- C96: whatever has been done with the class, a signal that builds its basis uses the time from the first to the last TOA
of *all pulsars for which the class has made a signal so far*, and no other signal changes. -/
theorem C96_span {h : List (Op κ)} {c : Cls κ} (hr : run none {} h = .ok c) (i : Nat) (s : Inst κ) (hs : c.insts[i]? = some s)
    (key : κ) (hk : s.cache.map Prod.fst ≠ some key) :
    ∃ lo hi c', construct none c i key = .ok c' ∧ IsLeast (AllToas c) lo ∧ IsGreatest (AllToas c) hi ∧
      c'.insts[i]? = some { s with cache := some (key, hi - lo) } ∧ ∀ j, j ≠ i → c'.insts[j]? = c.insts[j]? := by
  have h0 : c.insts ≠ [] := by
    intro h0; rw [h0] at hs; simp at hs
  obtain ⟨lo, hi, e, h1, h2⟩ := clsSpan_inv (inv_run inv_empty hr) h0
  refine ⟨lo, hi, { c with insts := c.insts.set i { s with cache := some (key, hi - lo) } }, ?_, h1, h2, ?_, ?_⟩
  · simp [construct, hs, hk, e, bind, Except.bind]
  · have : i < c.insts.length := (List.getElem?_eq_some_iff.1 hs).1
    simp [this]
  · intro j hj
    simp [List.getElem?_set_ne (Ne.symm hj)]

/-- C96: a signal keeps the span of its basis until it is asked for other values of its basis parameters. -/
theorem C96_kept {T : Option ℝ} {c c' : Cls κ} {o : Op κ} (h : step T c o = .ok c') (i : Nat) (s : Inst κ)
    (hs : c.insts[i]? = some s) (ho : ∀ key, o = .eval i key → s.cache.map Prod.fst = some key) : c'.insts[i]? = some s := by
  cases o with
  | new toas =>
    rw [(allToas_new h).1, List.getElem?_append_left (List.getElem?_eq_some_iff.1 hs).1, hs]
  | eval j key =>
    obtain ⟨s', hs', ⟨-, rfl⟩ | ⟨hk, t, -, rfl⟩⟩ := construct_ok h
    · exact hs
    · by_cases hj : j = i
      · subst hj
        rw [hs] at hs'
        simp only [Option.some.injEq] at hs'
        subst hs'
        exact absurd (ho key rfl) hk
      · simp [List.getElem?_set_ne hj, hs]

/-! ## All signals first -/

theorem run_news (ps : List (List ℝ)) {c c' : Cls κ} (hr : run none c (ps.map .new) = .ok c') :
    c'.insts = c.insts ++ ps.map fun toas => { toas := toas } := by
  induction ps generalizing c with
  | nil => simp only [run, List.map_nil, List.foldlM_nil, pure, Except.pure, Except.ok.injEq] at hr; simp [hr]
  | cons p ps ih =>
    rw [List.map_cons, run_cons] at hr
    cases hs : step none c (.new p) with
    | error e => rw [hs] at hr; simp [Except.bind] at hr
    | ok c1 =>
      rw [hs] at hr
      rw [ih hr, (allToas_new (show new none c p = .ok c1 from hs)).1]
      simp

/-- The signals that have a basis have it for the span `t`. -/
def AllAt (t : ℝ) (c : Cls κ) : Prop := ∀ (s : Inst κ) (key : κ) (u : ℝ), s ∈ c.insts → s.cache = some (key, u) → u = t

theorem run_evals {T : Option ℝ} (h : List (Op κ)) (he : ∀ o ∈ h, ∃ i key, o = .eval i key) {c c' : Cls κ} {t : ℝ}
    (hc : clsSpan T c = .ok t) (ha : AllAt t c) (hr : run T c h = .ok c') :
    AllAt t c' ∧ c'.insts.map Inst.toas = c.insts.map Inst.toas := by
  induction h generalizing c with
  | nil =>
    simp only [run, List.foldlM_nil, pure, Except.pure, Except.ok.injEq] at hr
    subst hr; exact ⟨ha, rfl⟩
  | cons o h ih =>
    rw [run_cons] at hr
    obtain ⟨i, key, rfl⟩ := he o (by simp)
    cases hs : step T c (.eval i key) with
    | error e => rw [hs] at hr; simp [Except.bind] at hr
    | ok c1 =>
      rw [hs] at hr
      obtain ⟨e1, e2, e3⟩ := construct_keeps hs
      have hc1 : clsSpan T c1 = .ok t := by
        rw [← hc]; unfold clsSpan; rw [e1, e2]
      have ha1 : AllAt t c1 := by
        obtain ⟨s, h1, ⟨-, rfl⟩ | ⟨-, u, hu, rfl⟩⟩ := construct_ok hs
        · exact ha
        · intro s' key' u' hm hc'
          rcases List.mem_or_eq_of_mem_set hm with hm | rfl
          · exact ha s' key' u' hm hc'
          · simp only [Option.some.injEq, Prod.mk.injEq] at hc'
            rw [hc] at hu
            simp only [Except.ok.injEq] at hu
            rw [← hc'.2, hu]
      obtain ⟨g1, g2⟩ := ih (fun o ho => he o (by simp [ho])) hc1 ha1 hr
      exact ⟨g1, g2.trans e3⟩

/-- The frequencies do not depend on the TOAs once the span is given. -/
theorem freqs_toas (toas toas' : List ℝ) (a : Args) (T : ℝ) : freqs toas { a with Tspan := some T } = freqs toas' { a with Tspan := some T } := rfl

/-- C96: if the signals of all pulsars are made before the first basis is asked for, all bases are for the same span, from
the first to the last TOA of all pulsars, and their columns have the same frequencies.  Missing: any other order of calls
(`C96_order_false`) and pulsars that get a signal of the class but are not in the array (`C96_foreign_false`). -/
theorem C96_partial (seeded : Int → Rng) (rng : Rng) (args : κ → Args) (ps : List (List ℝ)) (h : List (Op κ))
    (he : ∀ o ∈ h, ∃ i key, o = .eval i key) (h0 : ps ≠ []) {c : Cls κ} (hr : run none {} (ps.map .new ++ h) = .ok c) :
    ∃ lo hi, IsLeast {x | ∃ p ∈ ps, x ∈ p} lo ∧ IsGreatest {x | ∃ p ∈ ps, x ∈ p} hi ∧ c.insts.map Inst.toas = ps ∧
      (∀ s ∈ c.insts, ∀ key u, s.cache = some (key, u) → u = hi - lo) ∧
      ∀ s ∈ c.insts, ∀ s' ∈ c.insts, ∀ key u u', s.cache = some (key, u) → s'.cache = some (key, u') →
        ∀ F fr r F' fr' r', stored seeded rng args s = some (.ok ((F, fr), r)) →
          stored seeded rng args s' = some (.ok ((F', fr'), r')) → fr = fr' := by
  rw [run_append] at hr
  cases hn : run none ({} : Cls κ) (ps.map .new) with
  | error e => rw [hn] at hr; simp [Except.bind] at hr
  | ok c1 =>
    rw [hn] at hr
    simp only [Except.bind] at hr
    have e := run_news ps hn
    simp only [List.nil_append] at e
    have n0 : c1.insts ≠ [] := by rw [e]; simpa using h0
    obtain ⟨lo, hi, ec, g1, g2⟩ := clsSpan_inv (inv_run inv_empty hn) n0
    have ha : AllAt (hi - lo) c1 := by
      intro s key u hs hc
      rw [e] at hs
      obtain ⟨p, -, rfl⟩ := List.mem_map.1 hs
      simp at hc
    obtain ⟨k1, k2⟩ := run_evals h he ec ha hr
    have eA : AllToas c1 = {x | ∃ p ∈ ps, x ∈ p} := by
      rw [allToas_eq, e, List.map_map]
      ext x; simp
    rw [eA] at g1 g2
    refine ⟨lo, hi, g1, g2, ?_, fun s hs key u hc => k1 s key u hs hc, ?_⟩
    · rw [k2, e, List.map_map]
      exact List.map_id _
    · intro s hs s' hs' key u u' hc hc' F fr r F' fr' r' hb hb'
      have e1 := k1 s key u hs hc
      have e2 := k1 s' key u' hs' hc'
      simp only [stored, hc, hc', e1, e2, Option.map_some, Option.some.injEq] at hb hb'
      obtain ⟨f, φ, hf, -, -, -, rfl⟩ := red_ok hb
      obtain ⟨f', φ', hf', -, -, -, rfl⟩ := red_ok hb'
      rw [freqs_toas s.toas s'.toas] at hf
      rw [hf] at hf'
      simp only [Except.ok.injEq, Prod.mk.injEq, and_true] at hf'
      rw [hf']

/-- C96: with an explicit `Tspan` every basis is for that span, in whatever order the calls come. -/
theorem C96_explicit (T : ℝ) (h : List (Op κ)) {c : Cls κ} (hr : run (some T) {} h = .ok c) (s : Inst κ) (hs : s ∈ c.insts) (key : κ) (u : ℝ)
    (hc : s.cache = some (key, u)) : u = T := by
  have key' : ∀ (h : List (Op κ)) (c c' : Cls κ), AllAt T c → run (some T) c h = .ok c' → AllAt T c' := by
    intro h
    induction h with
    | nil =>
      intro c c' ha hr
      simp only [run, List.foldlM_nil, pure, Except.pure, Except.ok.injEq] at hr
      subst hr; exact ha
    | cons o h ih =>
      intro c c' ha hr
      rw [run_cons] at hr
      cases hs : step (some T) c o with
      | error e => rw [hs] at hr; simp [Except.bind] at hr
      | ok c1 =>
        rw [hs] at hr
        refine ih c1 c' ?_ hr
        cases o with
        | new toas =>
          intro s key u hm hc
          rw [(allToas_new (show new (some T) c toas = .ok c1 from hs)).1] at hm
          rcases List.mem_append.1 hm with hm | hm
          · exact ha s key u hm hc
          · rw [List.mem_singleton.1 hm] at hc; simp at hc
        | eval i key =>
          have he : ∀ o ∈ [Op.eval i key], ∃ j k, o = Op.eval j k := by
            intro o ho; exact ⟨i, key, List.mem_singleton.1 ho⟩
          have hr1 : run (some T) c [Op.eval i key] = .ok c1 := by rw [run_cons, hs]; rfl
          exact (run_evals [Op.eval i key] he (t := T) rfl ha hr1).1
  exact key' h {} c (by intro s key u hm; simp at hm) hr s key u hs hc

/-- C96: coefficients as parameters are refused without `Tspan`, and only then. -/
theorem C96_coefficients (T : Option ℝ) (b : Bool) : (factory b T : Except PyErr (Cls κ)) = .error .valueError ↔ b = true ∧ T = none := by
  unfold factory
  by_cases h : b = true ∧ T = none <;> simp [h]

/-- C96: histories in which every pulsar has a TOA and signals are made before they are asked run. -/
theorem C96_runs (ps : List (List ℝ)) (hp : ∀ p ∈ ps, p ≠ []) (h : List (Nat × κ)) (hh : ∀ x ∈ h, x.1 < ps.length) :
    ∃ c : Cls κ, run none {} (ps.map .new ++ h.map fun x => .eval x.1 x.2) = .ok c := by
  have h1 : ∀ (ps : List (List ℝ)) (c : Cls κ), (∀ p ∈ ps, p ≠ []) → ∃ c', run none c (ps.map .new) = .ok c' := by
    intro ps
    induction ps with
    | nil => intro c _; exact ⟨c, rfl⟩
    | cons p ps ih =>
      intro c hp
      obtain ⟨lo, hlo, -⟩ := amin_ok (hp p (by simp))
      obtain ⟨hi, hhi, -⟩ := amax_ok (hp p (by simp))
      rw [List.map_cons, run_cons]
      simp only [step, new, hlo, hhi, bind, Except.bind]
      exact ih _ fun p h => hp p (by simp [h])
  have h2 : ∀ (h : List (Nat × κ)) (c : Cls κ), Inv c → (∀ x ∈ h, x.1 < c.insts.length) →
      ∃ c', run none c (h.map fun x => .eval x.1 x.2) = .ok c' := by
    intro h
    induction h with
    | nil => intro c _ _; exact ⟨c, rfl⟩
    | cons x h ih =>
      intro c hi hx
      have hlt := hx x (by simp)
      obtain ⟨lo, hi', ec, -, -⟩ := clsSpan_inv hi (by intro h0; rw [h0] at hlt; simp at hlt)
      have hst : ∃ c1, step none c (.eval x.1 x.2) = .ok c1 := by
        simp only [step, construct, List.getElem?_eq_getElem hlt]
        by_cases hk : c.insts[x.1].cache.map Prod.fst = some x.2
        · exact ⟨c, by simp [hk]⟩
        · simp only [hk, if_false, ec, bind, Except.bind]
          exact ⟨_, rfl⟩
      obtain ⟨c1, hc1⟩ := hst
      rw [List.map_cons, run_cons, hc1]
      refine ih c1 (inv_construct hi hc1) ?_
      intro y hy
      have := congrArg List.length (construct_keeps hc1).2.2
      simp only [List.length_map] at this
      rw [this]
      exact hx y (by simp [hy])
  obtain ⟨c1, hc1⟩ := h1 ps {} hp
  have e := run_news ps hc1
  rw [run_append, hc1]
  refine h2 h c1 (inv_run inv_empty hc1) ?_
  intro x hx
  rw [e]
  simpa using hh x hx

/-! ## Other orders -/

theorem red_harmonics (seeded : Int → Rng) (rng : Rng) (toas : List ℝ) (T : ℝ) :
    ∃ F, red seeded rng toas { nmodes := 1, Tspan := some T } = .ok ((F, [1 / T, 1 / T]), rng) := by
  refine ⟨toas.map fun t => row t [1 / T] [0], ?_⟩
  simp [red, freqs, tspan, phases, harmonics, rep, bind, Except.bind]

/-- C96 fails if the basis of a pulsar is looked at before the signal of another pulsar is made: two pulsars of the array
then have different frequencies for good. -/
theorem C96_order_false (seeded : Int → Rng) (rng : Rng) :
    ∃ c : Cls Unit, run none {} [.new [0, 1], .eval 0 (), .new [0, 2], .eval 0 (), .eval 1 ()] = .ok c ∧
      ∃ s s' F F' r r', c.insts = [s, s'] ∧ stored seeded rng (fun _ => { nmodes := 1 }) s = some (.ok ((F, [1, 1]), r)) ∧
        stored seeded rng (fun _ => { nmodes := 1 }) s' = some (.ok ((F', [1 / 2, 1 / 2]), r')) := by
  obtain ⟨F, hF⟩ := red_harmonics seeded rng [0, 1] 1
  obtain ⟨F', hF'⟩ := red_harmonics seeded rng [0, 2] 2
  refine ⟨{ tmin := [0, 0], tmax := [1, 2], insts := [⟨[0, 1], some ((), 1)⟩, ⟨[0, 2], some ((), 2)⟩] }, ?_,
    ⟨[0, 1], some ((), 1)⟩, ⟨[0, 2], some ((), 2)⟩, F, F', rng, rng, rfl, ?_, ?_⟩
  · have e1 : min (0 : ℝ) 1 = 0 := by norm_num
    have e2 : max (0 : ℝ) 1 = 1 := by norm_num
    have e3 : min (0 : ℝ) 2 = 0 := by norm_num
    have e4 : max (0 : ℝ) 2 = 2 := by norm_num
    have e5 : max (1 : ℝ) 2 = 2 := by norm_num
    simp [run, step, new, construct, clsSpan, amin, amax, bind, Except.bind, e1, e2, e3, e4, e5, pure, Except.pure]
  · simp only [stored, Option.map_some]
    rw [hF]; norm_num
  · simp only [stored, Option.map_some]
    rw [hF']

/-- C96 fails if the class makes a signal for a pulsar outside the array (for a second array, say): two pulsars observed from
0 to 1 get the frequencies of the span 0 to 2 of a third. -/
theorem C96_foreign_false (seeded : Int → Rng) (rng : Rng) :
    ∃ c : Cls Unit, run none {} [.new [0, 1], .new [0, 1], .new [0, 2], .eval 0 (), .eval 1 ()] = .ok c ∧
      ∃ s s' s'' F F' r r', c.insts = [s, s', s''] ∧
        stored seeded rng (fun _ => { nmodes := 1 }) s = some (.ok ((F, [1 / 2, 1 / 2]), r)) ∧
        stored seeded rng (fun _ => { nmodes := 1 }) s' = some (.ok ((F', [1 / 2, 1 / 2]), r')) := by
  obtain ⟨F, hF⟩ := red_harmonics seeded rng [0, 1] 2
  refine ⟨{ tmin := [0, 0, 0], tmax := [1, 1, 2], insts := [⟨[0, 1], some ((), 2)⟩, ⟨[0, 1], some ((), 2)⟩, ⟨[0, 2], none⟩] }, ?_,
    ⟨[0, 1], some ((), 2)⟩, ⟨[0, 1], some ((), 2)⟩, ⟨[0, 2], none⟩, F, F, rng, rng, rfl, ?_, ?_⟩
  · have e1 : min (0 : ℝ) 1 = 0 := by norm_num
    have e2 : max (0 : ℝ) 1 = 1 := by norm_num
    have e3 : min (0 : ℝ) 2 = 0 := by norm_num
    have e4 : max (0 : ℝ) 2 = 2 := by norm_num
    have e5 : max (1 : ℝ) 2 = 2 := by norm_num
    simp [run, step, new, construct, clsSpan, amin, amax, bind, Except.bind, e1, e2, e3, e4, e5, pure, Except.pure]
  · simp only [stored, Option.map_some]
    rw [hF]
  · simp only [stored, Option.map_some]
    rw [hF]

/-- The hypotheses of `C96_partial` can be met. -/
example : ∃ c : Cls Unit, run none {} ([[0, 1], [0, 2]].map .new ++ [(0, ()), (1, ())].map fun x => .eval x.1 x.2) = .ok c :=
  C96_runs [[0, 1], [0, 2]] (by simp) [(0, ()), (1, ())] (by simp)

example : ∃ c : Cls Unit, run (some 5) {} [.new [0, 1], .eval 0 (), .new [], .eval 1 ()] = .ok c ∧
    c.insts = [⟨[0, 1], some ((), 5)⟩, ⟨[], some ((), 5)⟩] := by
  refine ⟨{ insts := [⟨[0, 1], some ((), 5)⟩, ⟨[], some ((), 5)⟩] }, ?_, rfl⟩
  simp [run, step, new, construct, clsSpan, bind, Except.bind, pure, Except.pure]

end Verif.Common
