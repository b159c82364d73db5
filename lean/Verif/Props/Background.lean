import Verif.Model.Background

/-!
# Property C110: the time span of a common process

The span that `FourierBasisCommonGP` takes by itself, over all sessions with the class.
-/

namespace Verif.Background

open Verif

/-! ## Specification -/

/-- The time from the first to the last of some TOAs. -/
def IsSpan (l : List ℝ) (T : ℝ) : Prop := ∃ a ∈ l, ∃ b ∈ l, T = b - a ∧ ∀ t ∈ l, a ≤ t ∧ t ≤ b

/-- The pulsars of which signals were made: those without TOAs raise. -/
def made : List Op → List (List ℝ)
  | [] => []
  | .make [] :: l => made l
  | .make (t :: ts) :: l => (t :: ts) :: made l
  | .use _ :: l => made l

theorem isSpan_unique {l : List ℝ} {T T' : ℝ} (h : IsSpan l T) (h' : IsSpan l T') : T = T' := by
  obtain ⟨a, ha, b, hb, rfl, h1⟩ := h
  obtain ⟨a', ha', b', hb', rfl, h2⟩ := h'
  have := (h1 a' ha').1
  have := (h2 a ha).1
  have := (h1 b' hb').2
  have := (h2 b hb).2
  linarith

/-! ## The lists of the class -/

theorem foldl_max_spec (l : List ℝ) : ∀ x, (l.foldl max x ∈ x :: l) ∧ ∀ t ∈ x :: l, t ≤ l.foldl max x := by
  induction l with
  | nil => intro x; simp
  | cons y t ih =>
    intro x
    obtain ⟨h1, h2⟩ := ih (max x y)
    refine ⟨?_, fun z hz => ?_⟩
    · rw [List.foldl_cons]
      rcases List.mem_cons.1 h1 with h | h
      · rw [h]
        rcases max_choice x y with e | e <;> simp [e]
      · simp [h]
    · rw [List.foldl_cons]
      have h3 := h2 (max x y) (by simp)
      rcases List.mem_cons.1 hz with rfl | hz
      · exact (le_max_left _ _).trans h3
      · rcases List.mem_cons.1 hz with rfl | hz
        · exact (le_max_right _ _).trans h3
        · exact h2 z (by simp [hz])

theorem foldl_min_spec (l : List ℝ) : ∀ x, (l.foldl min x ∈ x :: l) ∧ ∀ t ∈ x :: l, l.foldl min x ≤ t := by
  induction l with
  | nil => intro x; simp
  | cons y t ih =>
    intro x
    obtain ⟨h1, h2⟩ := ih (min x y)
    refine ⟨?_, fun z hz => ?_⟩
    · rw [List.foldl_cons]
      rcases List.mem_cons.1 h1 with h | h
      · rw [h]
        rcases min_choice x y with e | e <;> simp [e]
      · simp [h]
    · rw [List.foldl_cons]
      have h3 := h2 (min x y) (by simp)
      rcases List.mem_cons.1 hz with rfl | hz
      · exact h3.trans (min_le_left _ _)
      · rcases List.mem_cons.1 hz with rfl | hz
        · exact h3.trans (min_le_right _ _)
        · exact h2 z (by simp [hz])

/-- `m` is the greatest of the TOAs, or the least. -/
def Greatest (l : List ℝ) (m : ℝ) : Prop := m ∈ l ∧ ∀ t ∈ l, t ≤ m
def Least (l : List ℝ) (m : ℝ) : Prop := m ∈ l ∧ ∀ t ∈ l, m ≤ t

theorem pyMax_greatest {l : List ℝ} (h : l ≠ []) : ∃ m, pyMax l = .ok m ∧ Greatest l m := by
  cases l with
  | nil => exact absurd rfl h
  | cons x t => exact ⟨_, rfl, foldl_max_spec t x⟩

theorem pyMin_least {l : List ℝ} (h : l ≠ []) : ∃ m, pyMin l = .ok m ∧ Least l m := by
  cases l with
  | nil => exact absurd rfl h
  | cons x t => exact ⟨_, rfl, foldl_min_spec t x⟩

theorem greatest_flatten {ls : List (List ℝ)} {ms : List ℝ} (h : List.Forall₂ Greatest ls ms) {m : ℝ} (hm : Greatest ms m) :
    Greatest ls.flatten m := by
  constructor
  · obtain ⟨h1, -⟩ := hm
    clear * - h h1
    induction h with
    | nil => simp at h1
    | cons hr _ ih =>
      rw [List.flatten_cons, List.mem_append]
      rcases List.mem_cons.1 h1 with rfl | h1
      · exact .inl hr.1
      · exact .inr (ih h1)
  · obtain ⟨-, h1⟩ := hm
    induction h with
    | nil => simp
    | cons hr _ ih =>
      intro t ht
      rw [List.flatten_cons, List.mem_append] at ht
      rcases ht with ht | ht
      · exact (hr.2 t ht).trans (h1 _ (by simp))
      · exact ih (fun x hx => h1 x (by simp [hx])) t ht

theorem least_flatten {ls : List (List ℝ)} {ms : List ℝ} (h : List.Forall₂ Least ls ms) {m : ℝ} (hm : Least ms m) :
    Least ls.flatten m := by
  constructor
  · obtain ⟨h1, -⟩ := hm
    clear * - h h1
    induction h with
    | nil => simp at h1
    | cons hr _ ih =>
      rw [List.flatten_cons, List.mem_append]
      rcases List.mem_cons.1 h1 with rfl | h1
      · exact .inl hr.1
      · exact .inr (ih h1)
  · obtain ⟨-, h1⟩ := hm
    induction h with
    | nil => simp
    | cons hr _ ih =>
      intro t ht
      rw [List.flatten_cons, List.mem_append] at ht
      rcases ht with ht | ht
      · exact (h1 _ (by simp)).trans (hr.2 t ht)
      · exact ih (fun x hx => h1 x (by simp [hx])) t ht

/-! ## Sessions -/

theorem run_append (c : Cls) (l m : List Op) : c.run (l ++ m) = (c.run l).run m := by
  induction l generalizing c with
  | nil => rfl
  | cons o t ih => exact ih _

theorem made_append (l m : List Op) : made (l ++ m) = made l ++ made m := by
  induction l with
  | nil => rfl
  | cons o t ih =>
    cases o with
    | make toas => cases toas <;> simp [made, ih]
    | use i => simp [made, ih]

/-- What holds of the class after a session. -/
structure Inv (c : Cls) (ls : List (List ℝ)) : Prop where
  arg : c.Tspan = none
  low : List.Forall₂ Least ls c.tmin
  high : List.Forall₂ Greatest ls c.tmax
  objs : c.objs.map Prod.fst = ls

theorem Inv.step {c : Cls} {ls : List (List ℝ)} (h : Inv c ls) (o : Op) : Inv (c.step o).1 (ls ++ made [o]) := by
  cases o with
  | make toas =>
    cases toas with
    | nil =>
      have : c.make [] = .error .valueError := by simp [Cls.make, h.arg, pyMin]
      simp only [Cls.step, this, made, List.append_nil]
      exact h
    | cons t ts =>
      obtain ⟨a, e1, h1⟩ := pyMin_least (l := t :: ts) (by simp)
      obtain ⟨b, e2, h2⟩ := pyMax_greatest (l := t :: ts) (by simp)
      have : c.make (t :: ts) = .ok { c with tmin := c.tmin ++ [a], tmax := c.tmax ++ [b], objs := c.objs ++ [(t :: ts, none)] } := by
        simp only [Cls.make, h.arg, e1, e2]
      simp only [Cls.step, this, made]
      exact ⟨h.arg, List.rel_append h.low (.cons h1 .nil), List.rel_append h.high (.cons h2 .nil), by simp [h.objs]⟩
  | use i =>
    simp only [made, List.append_nil, Cls.step]
    cases hu : c.use i with
    | error e => exact h
    | ok r =>
      obtain ⟨c', T⟩ := r
      simp only
      have key : ∀ (toas : List ℝ) (T : ℝ), c.objs[i]? = some (toas, none) → Inv { c with objs := c.objs.set i (toas, some T) } ls := by
        intro toas T ho
        refine ⟨h.arg, h.low, h.high, ?_⟩
        rw [← h.objs, List.map_set]
        apply List.ext_getElem?
        intro j
        rw [List.getElem?_set]
        split
        · rename_i e
          subst e
          rw [List.length_map, if_pos (List.getElem?_eq_some_iff.1 ho).1, List.getElem?_map, ho]
          rfl
        · rfl
      unfold Cls.use at hu
      cases ho : c.objs[i]? with
      | none => rw [ho] at hu; cases hu
      | some x =>
        obtain ⟨toas, cached⟩ := x
        rw [ho] at hu
        cases cached with
        | some T' =>
          simp only [Except.ok.injEq, Prod.mk.injEq] at hu
          rw [← hu.1]
          exact h
        | none =>
          simp only [h.arg] at hu
          split at hu
          · simp only [Except.ok.injEq, Prod.mk.injEq] at hu
            rw [← hu.1]
            have k := fun S => key toas S ho
            rw [h.arg] at k
            exact k _
          · cases hu
          · cases hu

theorem Inv.run {c : Cls} {ls : List (List ℝ)} (h : Inv c ls) (ops : List Op) : Inv (c.run ops) (ls ++ made ops) := by
  induction ops generalizing c ls with
  | nil => simpa [Cls.run, made] using h
  | cons o t ih =>
    have := ih (h.step o)
    rw [List.append_assoc, ← made_append] at this
    exact this

theorem fresh_inv : Inv { Tspan := none } [] := ⟨rfl, .nil, .nil, rfl⟩

/-- What an object has cached stays. -/
theorem cached_step {c : Cls} {i : Nat} {x : List ℝ × Option ℝ} (h : c.objs[i]? = some x) (o : Op) (ho : o ≠ .use i ∨ x.2 ≠ none) :
    (c.step o).1.objs[i]? = some x := by
  have hlt := (List.getElem?_eq_some_iff.1 h).1
  cases o with
  | make toas =>
    simp only [Cls.step]
    cases hm : c.make toas with
    | error e => exact h
    | ok c' =>
      have : c'.objs = c.objs ++ [(toas, none)] := by
        unfold Cls.make at hm
        split at hm
        · cases hm; rfl
        · split at hm
          · cases hm; rfl
          · cases hm
          · cases hm
      simp only [this]
      rw [List.getElem?_append_left hlt]
      exact h
  | use j =>
    simp only [Cls.step]
    cases hu : c.use j with
    | error e => exact h
    | ok r =>
      obtain ⟨c', T⟩ := r
      simp only
      unfold Cls.use at hu
      split at hu
      · cases hu
      · cases hu; exact h
      · rename_i toas hj
        have hne : j ≠ i := by
          rintro rfl
          rw [h] at hj
          rcases ho with ho | ho
          · exact ho rfl
          · cases hj; exact ho rfl
        split at hu
        · cases hu
          simp only [List.getElem?_set_ne hne]
          exact h
        · split at hu
          · cases hu
            simp only [List.getElem?_set_ne hne]
            exact h
          · cases hu
          · cases hu

theorem cached_run {c : Cls} {i : Nat} {x : List ℝ × Option ℝ} (h : c.objs[i]? = some x) (ops : List Op)
    (ho : (∀ o ∈ ops, o ≠ .use i) ∨ x.2 ≠ none) : (c.run ops).objs[i]? = some x := by
  induction ops generalizing c with
  | nil => exact h
  | cons o t ih =>
    refine ih (cached_step h o ?_) ?_
    · rcases ho with ho | ho
      · exact .inl (ho o (by simp))
      · exact .inr ho
    · rcases ho with ho | ho
      · exact .inl fun o' h' => ho o' (by simp [h'])
      · exact .inr ho

theorem use_cached {c : Cls} {i : Nat} {toas : List ℝ} {T : ℝ} (h : c.objs[i]? = some (toas, some T)) :
    (c.step (.use i)).2 = .ok (some T) := by
  simp only [Cls.step, Cls.use, h]

/-- An object that was made and has not been used has cached nothing. -/
theorem uncached {c : Cls} (ops : List Op) (hc : ∀ x ∈ c.objs, x.2 = none) (i : Nat) (hi : ∀ o ∈ ops, o ≠ .use i) :
    ∀ x, (c.run ops).objs[i]? = some x → x.2 = none := by
  have : ∀ (ops : List Op) (c : Cls), (∀ x, c.objs[i]? = some x → x.2 = none) → (∀ o ∈ ops, o ≠ .use i) →
      ∀ x, (c.run ops).objs[i]? = some x → x.2 = none := by
    intro ops
    induction ops with
    | nil => intro c h _; exact h
    | cons o t ih =>
      intro c h ho
      refine ih _ ?_ fun o' h' => ho o' (by simp [h'])
      intro x hx
      cases hx0 : c.objs[i]? with
      | some y =>
        rw [cached_step hx0 o (.inl (ho o (by simp)))] at hx
        exact h x (hx0.trans hx)
      | none =>
        -- the object was made by this operation
        cases o with
        | make toas =>
          simp only [Cls.step] at hx
          cases hm : c.make toas with
          | error e => rw [hm] at hx; rw [hx0] at hx; cases hx
          | ok c' =>
            rw [hm] at hx
            have e : c'.objs = c.objs ++ [(toas, none)] := by
              unfold Cls.make at hm
              split at hm
              · cases hm; rfl
              · split at hm
                · cases hm; rfl
                · cases hm
                · cases hm
            simp only [e] at hx
            have := List.mem_of_getElem? hx
            rw [List.mem_append] at this
            rcases this with h1 | h1
            · have hge := List.getElem?_eq_none_iff.1 hx0
              rw [List.getElem?_append_right hge] at hx
              have := List.mem_of_getElem? hx
              rw [List.mem_singleton] at this
              rw [this]
            · rw [List.mem_singleton] at h1
              rw [h1]
        | use j =>
          have hge := List.getElem?_eq_none_iff.1 hx0
          have hl : (c.step (.use j)).1.objs.length = c.objs.length := by
            simp only [Cls.step]
            cases hu : c.use j with
            | error e => rfl
            | ok r =>
              obtain ⟨c', T⟩ := r
              simp only
              unfold Cls.use at hu
              split at hu
              · cases hu
              · cases hu; rfl
              · split at hu
                · cases hu; simp
                · split at hu
                  · cases hu; simp
                  · cases hu
                  · cases hu
          have := (List.getElem?_eq_some_iff.1 hx).1
          omega
  exact this ops c (fun x hx => hc x (List.mem_of_getElem? hx)) hi

/-- C110: without `Tspan`, in whatever session, the time span of a common process in a pulsar is that of all the pulsars of which
the class has made signals until this signal is first used; it does not change after that. -/
theorem C110_span (pre post : List Op) (i : Nat) (hi : i < (made pre).length) (hu : ∀ o ∈ pre, o ≠ .use i) :
    ∃ T, IsSpan (made pre).flatten T ∧ (Cls.step (Cls.run { Tspan := none } pre) (.use i)).2 = .ok (some T) ∧
      (Cls.step (Cls.run { Tspan := none } (pre ++ .use i :: post)) (.use i)).2 = .ok (some T) := by
  have inv := fresh_inv.run pre
  rw [List.nil_append] at inv
  generalize hc : Cls.run { Tspan := none } pre = c at inv
  have hlt : i < c.objs.length := by
    have := congrArg List.length inv.objs
    rw [List.length_map] at this
    omega
  obtain ⟨⟨toas, cached⟩, hx⟩ : ∃ x, c.objs[i]? = some x := ⟨_, List.getElem?_eq_getElem hlt⟩
  have hnone : cached = none := by
    have := uncached (c := { Tspan := none }) pre (by simp) i hu (toas, cached) (by rw [hc]; exact hx)
    exact this
  subst hnone
  have hmin : c.tmin ≠ [] := by
    intro h
    have := inv.low.length_eq
    rw [h] at this
    simp only [List.length_nil] at this
    omega
  have hmax : c.tmax ≠ [] := by
    intro h
    have := inv.high.length_eq
    rw [h] at this
    simp only [List.length_nil] at this
    omega
  obtain ⟨a, e1, h1⟩ := pyMin_least hmin
  obtain ⟨b, e2, h2⟩ := pyMax_greatest hmax
  have g1 := least_flatten inv.low h1
  have g2 := greatest_flatten inv.high h2
  have huse : c.use i = .ok ({ c with objs := c.objs.set i (toas, some (b - a)) }, b - a) := by
    unfold Cls.use
    rw [hx]
    simp only [inv.arg, e1, e2]
  refine ⟨b - a, ⟨a, g1.1, b, g2.1, rfl, fun t ht => ⟨g1.2 t ht, g2.2 t ht⟩⟩, ?_, ?_⟩
  · simp only [Cls.step, huse]
  · rw [run_append, hc]
    have : (Cls.step c (.use i)).1.objs[i]? = some (toas, some (b - a)) := by
      simp only [Cls.step, huse]
      rw [List.getElem?_set_self hlt]
    exact use_cached (cached_run this post (.inr (by simp)))

theorem made_map (ls : List (List ℝ)) (h : ∀ l ∈ ls, l ≠ []) : made (ls.map .make) = ls := by
  induction ls with
  | nil => rfl
  | cons l t ih =>
    cases l with
    | nil => exact absurd rfl (h [] (by simp))
    | cons x xs => simp only [List.map_cons, made, ih fun l hl => h l (by simp [hl])]

theorem made_uses (us : List Nat) : made (us.map .use) = [] := by
  induction us with
  | nil => rfl
  | cons u t ih => simpa [made] using ih

/-- C110: if the signals of all pulsars are made first, the time span is that of the whole array, the same for every pulsar,
whatever is asked of the signals and in which order. -/
theorem C110_array (ls : List (List ℝ)) (h : ∀ l ∈ ls, l ≠ []) (h0 : ls ≠ []) : ∃ T, IsSpan ls.flatten T ∧
    ∀ (us : List Nat) (i : Nat), i < ls.length →
      (Cls.step (Cls.run { Tspan := none } (ls.map .make ++ us.map .use)) (.use i)).2 = .ok (some T) := by
  have key : ∀ (us : List Nat) (i : Nat), i < ls.length → ∃ T, IsSpan ls.flatten T ∧
      (Cls.step (Cls.run { Tspan := none } (ls.map .make ++ us.map .use)) (.use i)).2 = .ok (some T) := by
    intro us i hi
    by_cases hu : i ∈ us
    · obtain ⟨s, t, rfl, hs⟩ := List.eq_append_cons_of_mem hu
      obtain ⟨T, h1, -, h3⟩ := C110_span (ls.map .make ++ s.map .use) (t.map .use) i
        (by rw [made_append, made_map ls h, made_uses, List.append_nil]; exact hi) (by
          intro o ho
          rcases List.mem_append.1 ho with ho | ho
          · obtain ⟨l, -, rfl⟩ := List.mem_map.1 ho
            simp
          · obtain ⟨j, hj, rfl⟩ := List.mem_map.1 ho
            intro e
            cases e
            exact hs hj)
      rw [made_append, made_map ls h, made_uses, List.append_nil] at h1
      refine ⟨T, h1, ?_⟩
      rw [List.map_append, List.map_cons, ← List.append_assoc]
      exact h3
    · obtain ⟨T, h1, h2, -⟩ := C110_span (ls.map .make ++ us.map .use) [] i
        (by rw [made_append, made_map ls h, made_uses, List.append_nil]; exact hi) (by
          intro o ho
          rcases List.mem_append.1 ho with ho | ho
          · obtain ⟨l, -, rfl⟩ := List.mem_map.1 ho
            simp
          · obtain ⟨j, hj, rfl⟩ := List.mem_map.1 ho
            intro e
            cases e
            exact hu hj)
      rw [made_append, made_map ls h, made_uses, List.append_nil] at h1
      exact ⟨T, h1, h2⟩
  have hlt : 0 < ls.length := List.length_pos_iff.2 h0
  obtain ⟨T, h1, -⟩ := key [] 0 hlt
  refine ⟨T, h1, fun us i hi => ?_⟩
  obtain ⟨T', h1', h2'⟩ := key us i hi
  rw [h2', isSpan_unique h1 h1']

/-- C110: with `Tspan` given every pulsar has it, in whatever session. -/
theorem C110_given (T : ℝ) (ops : List Op) (i : Nat) (T' : ℝ) (h : (Cls.step (Cls.run { Tspan := some T } ops) (.use i)).2 = .ok (some T')) :
    T' = T := by
  have hstep : ∀ (c : Cls), (c.Tspan = some T ∧ ∀ x ∈ c.objs, x.2 = none ∨ x.2 = some T) → ∀ o,
      (c.step o).1.Tspan = some T ∧ ∀ x ∈ (c.step o).1.objs, x.2 = none ∨ x.2 = some T := by
    rintro c ⟨hT, ho⟩ o
    cases o with
    | make toas =>
      simp only [Cls.step, Cls.make, hT]
      refine ⟨trivial, fun x hx => ?_⟩
      rcases List.mem_append.1 hx with hx | hx
      · exact ho x hx
      · rw [List.mem_singleton.1 hx]; exact .inl rfl
    | use j =>
      simp only [Cls.step, Cls.use, hT]
      cases hj : c.objs[j]? with
      | none => exact ⟨hT, ho⟩
      | some x =>
        obtain ⟨toas, cached⟩ := x
        cases cached with
        | some S => exact ⟨hT, ho⟩
        | none =>
          refine ⟨rfl, fun x hx => ?_⟩
          rcases List.mem_or_eq_of_mem_set hx with hx | hx
          · exact ho x hx
          · rw [hx]; exact .inr rfl
  have hrun : ∀ (ops : List Op) (c : Cls), (c.Tspan = some T ∧ ∀ x ∈ c.objs, x.2 = none ∨ x.2 = some T) →
      (c.run ops).Tspan = some T ∧ ∀ x ∈ (c.run ops).objs, x.2 = none ∨ x.2 = some T := by
    intro ops
    induction ops with
    | nil => intro c hc; exact hc
    | cons o t ih => intro c hc; exact ih _ (hstep c hc o)
  obtain ⟨hT, ho⟩ := hrun ops { Tspan := some T } ⟨rfl, by simp⟩
  generalize Cls.run { Tspan := some T } ops = c at hT ho h
  simp only [Cls.step, Cls.use, hT] at h
  cases hj : c.objs[i]? with
  | none => rw [hj] at h; cases h
  | some x =>
    obtain ⟨toas, cached⟩ := x
    rw [hj] at h
    cases cached with
    | some S =>
      have := ho _ (List.mem_of_getElem? hj)
      simp only [Except.ok.injEq, Option.some.injEq] at h
      rcases this with h' | h'
      · cases h'
      · rw [← h]; exact Option.some.inj h'
    | none =>
      simp only [Except.ok.injEq, Option.some.injEq] at h
      exact h.symm

/-- C110 is not true of all sessions: a signal used before the next one is made keeps its own span, so that two pulsars of one
array have different frequencies. -/
theorem C110_order : (Cls.step (Cls.run { Tspan := none } [.make [0, 1], .use 0, .make [0, 4], .use 1]) (.use 0)).2 = .ok (some 1) ∧
    (Cls.step (Cls.run { Tspan := none } [.make [0, 1], .use 0, .make [0, 4], .use 1]) (.use 1)).2 = .ok (some 4) := by
  constructor <;> simp [Cls.step, Cls.run, Cls.make, Cls.use, pyMax, pyMin]

/-- And signals made later, of a second array with the same class, have the span of the pulsars of both. -/
theorem C110_reuse : (Cls.step (Cls.run { Tspan := none } [.make [0, 10], .use 0, .make [2, 3]]) (.use 1)).2 = .ok (some 10) ∧
    (Cls.step (Cls.run { Tspan := none } [.make [2, 3]]) (.use 0)).2 = .ok (some 1) := by
  constructor <;> norm_num [Cls.step, Cls.run, Cls.make, Cls.use, pyMax, pyMin]

/-- Two pulsars of which one was observed earlier and the other later. -/
example : ∃ T, IsSpan [1, 5, 2, 9] T ∧ T = 8 ∧ ∀ (us : List Nat) (i : Nat), i < 2 →
    (Cls.step (Cls.run { Tspan := none } ([[1, 5], [2, 9]].map .make ++ us.map .use)) (.use i)).2 = .ok (some T) := by
  obtain ⟨T, h1, h2⟩ := C110_array [[1, 5], [2, 9]] (by simp) (by simp)
  have h8 : IsSpan [1, 5, 2, 9] 8 := ⟨1, by simp, 9, by simp, by norm_num, by
    intro t ht
    simp only [List.mem_cons, List.not_mem_nil, or_false] at ht
    rcases ht with rfl | rfl | rfl | rfl <;> norm_num⟩
  exact ⟨T, h1, isSpan_unique h1 h8, h2⟩

end Verif.Background
