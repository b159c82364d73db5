import Mathlib.Tactic.Linarith
import Mathlib.Tactic.FieldSimp
import Mathlib.Tactic.Ring
import Verif.Model.Bases

/-!
# Fourier bases: C65, C88, C89
-/

namespace Verif.Bases

open Verif

/-! ## Lemmas about lists -/

theorem rep_length {α : Type} (n : Nat) (l : List α) : (rep n l).length = n * l.length := by
  induction l with
  | nil => simp [rep]
  | cons a l ih => rw [show rep n (a :: l) = List.replicate n a ++ rep n l by simp [rep], List.length_append, ih]; simp; ring

theorem rep_cons {α : Type} (n : Nat) (a : α) (l : List α) : rep n (a :: l) = List.replicate n a ++ rep n l := by
  simp [rep]

theorem rep_append {α : Type} (n : Nat) (l m : List α) : rep n (l ++ m) = rep n l ++ rep n m := by
  simp [rep]

theorem rep_get {α : Type} (n : Nat) (l : List α) (j k : Nat) (hk : k < n) : (rep n l)[n * j + k]? = l[j]? := by
  induction l generalizing j with
  | nil => simp [rep]
  | cons a l ih =>
    rw [rep_cons]
    cases j with
    | zero => rw [List.getElem?_append_left (by simpa using hk)]; simp [hk]
    | succ j =>
      rw [List.getElem?_append_right (by simp; nlinarith), List.length_replicate,
        show n * (j + 1) + k - n = n * j + k by rw [Nat.mul_succ]; omega, ih]
      simp

theorem row_nil_left (t : ℝ) (φ : List ℝ) : row t [] φ = [] := by simp [row]

theorem row_cons (t x p : ℝ) (f φ : List ℝ) : row t (x :: f) (p :: φ) =
    Real.sin (2 * Real.pi * t * x + p) :: Real.cos (2 * Real.pi * t * x + p) :: row t f φ := by
  simp [row]

theorem row_append (t : ℝ) (f φ f' φ' : List ℝ) (h : f.length = φ.length) :
    row t (f ++ f') (φ ++ φ') = row t f φ ++ row t f' φ' := by
  rw [row, List.zipWith_append h, List.flatten_append]; rfl

theorem row_length (t : ℝ) (f φ : List ℝ) (h : f.length = φ.length) : (row t f φ).length = 2 * f.length := by
  induction f generalizing φ with
  | nil => simp [row]
  | cons x f ih =>
    cases φ with
    | nil => simp at h
    | cons p φ =>
      rw [row_cons, List.length_cons, List.length_cons, ih φ (by simpa using h), List.length_cons]
      omega

theorem row_get (t : ℝ) (f φ : List ℝ) (j : Nat) (x p : ℝ) (hx : f[j]? = some x) (hp : φ[j]? = some p) :
    (row t f φ)[2 * j]? = some (Real.sin (2 * Real.pi * t * x + p)) ∧
      (row t f φ)[2 * j + 1]? = some (Real.cos (2 * Real.pi * t * x + p)) := by
  induction f generalizing φ j with
  | nil => simp at hx
  | cons y f ih =>
    cases φ with
    | nil => simp at hp
    | cons q φ =>
      rw [row_cons]
      cases j with
      | zero =>
        simp at hx hp
        subst hx hp
        simp
      | succ j =>
        have := ih φ j (by simpa using hx) (by simpa using hp)
        rw [show 2 * (j + 1) = 2 * j + 1 + 1 by ring]
        simpa using this

/-! ## `createfourierdesignmatrix_red` -/

theorem phases_length {seeded : Int → Rng} {rng : Rng} {toas : List ℝ} {a : Args} {n : Nat} {φ : List ℝ} {rng' : Rng}
    (h : phases seeded rng toas a n = .ok (φ, rng')) : φ.length = n := by
  unfold phases at h
  split at h
  · split at h
    · exact absurd h (by simp)
    · simp only at h
      split at h
      · simp only [Except.ok.injEq, rngPhases, Prod.mk.injEq] at h
        rw [← h.1]; simp
      · exact absurd h (by simp)
  · split at h
    · simp only [Except.ok.injEq, rngPhases, Prod.mk.injEq] at h
      rw [← h.1]; simp
    · simp only [Except.ok.injEq, Prod.mk.injEq] at h
      rw [← h.1]; simp

/-- What a result looks like: one row per TOA made from one list of frequencies and one of phases. -/
theorem red_ok {seeded : Int → Rng} {rng rng' : Rng} {toas : List ℝ} {a : Args} {F : List (List ℝ)} {fr : List ℝ}
    (h : red seeded rng toas a = .ok ((F, fr), rng')) :
    ∃ f φ, freqs toas a = .ok (f, false) ∧ phases seeded rng toas a f.length = .ok (φ, rng') ∧
      φ.length = f.length ∧ F = toas.map (fun t => row t f φ) ∧ fr = rep 2 f := by
  unfold red at h
  cases hf : freqs toas a with
  | error e => rw [hf] at h; exact absurd h (by simp [bind, Except.bind])
  | ok fb =>
    obtain ⟨f, b⟩ := fb
    rw [hf] at h
    simp only [bind, Except.bind] at h
    cases hp : phases seeded rng toas a f.length with
    | error e => rw [hp] at h; exact absurd h (by simp)
    | ok pr =>
      obtain ⟨φ, r⟩ := pr
      rw [hp] at h
      cases b with
      | true => exact absurd h (by simp)
      | false =>
        simp only [Bool.false_eq_true, if_false, Except.ok.injEq, Prod.mk.injEq] at h
        exact ⟨f, φ, rfl, by rw [hp, h.2], phases_length hp, h.1.1.symm, h.1.2.symm⟩

theorem red_of {seeded : Int → Rng} {rng rng' : Rng} {toas : List ℝ} {a : Args} {f φ : List ℝ}
    (hf : freqs toas a = .ok (f, false)) (hp : phases seeded rng toas a f.length = .ok (φ, rng')) :
    red seeded rng toas a = .ok ((toas.map (fun t => row t f φ), rep 2 f), rng') := by
  unfold red
  rw [hf]
  simp only [bind, Except.bind]
  rw [hp]
  simp

/-- **C65**: with an explicit `Tspan` the matrix has one row per TOA and, for each of the `n` modes, a sine and
a cosine column of frequency `k / T`, the first mode having `k = 1`; the frequencies are returned in the same
order, and the random state is untouched. -/
theorem C65_columns (seeded : Int → Rng) (rng : Rng) (toas : List ℝ) (n : Nat) (T : ℝ) :
    ∃ (F : List (List ℝ)) (fr : List ℝ), red seeded rng toas { nmodes := n, Tspan := some T } = .ok ((F, fr), rng) ∧
      F.length = toas.length ∧ fr.length = 2 * n ∧
      (∀ j < n, fr[2 * j]? = some (((j : ℝ) + 1) / T) ∧ fr[2 * j + 1]? = some (((j : ℝ) + 1) / T)) ∧
      ∀ (i : Nat) (t : ℝ), toas[i]? = some t → ∃ r : List ℝ, F[i]? = some r ∧ r.length = 2 * n ∧
        ∀ j < n, r[2 * j]? = some (Real.sin (2 * Real.pi * (((j : ℝ) + 1) / T) * t)) ∧
          r[2 * j + 1]? = some (Real.cos (2 * Real.pi * (((j : ℝ) + 1) / T) * t)) := by
  have hf : freqs toas { nmodes := n, Tspan := some T } =
      .ok (harmonics n T, false) := by
    simp [freqs, tspan, bind, Except.bind]
  have hp : phases seeded rng toas { nmodes := n, Tspan := some T }
      (harmonics n T).length = .ok (List.replicate n 0, rng) := by
    simp [phases, harmonics]
  refine ⟨_, _, red_of hf hp, by simp, by rw [rep_length]; simp [harmonics], ?_, ?_⟩
  · intro j hj
    have h0 := rep_get 2 (harmonics n T) j 0 (by norm_num)
    have h1 := rep_get 2 (harmonics n T) j 1 (by norm_num)
    simp only [Nat.add_zero] at h0
    rw [h0, h1]
    simp [hj, harmonics]
  · intro i t ht
    refine ⟨_, by rw [List.getElem?_map, ht]; rfl, by rw [row_length _ _ _ (by simp [harmonics])]; simp [harmonics], ?_⟩
    intro j hj
    have := row_get t (harmonics n T) (List.replicate n 0) j
      (1 * ((j : ℝ) + 1) / T) 0 (by simp [hj, harmonics]) (by simp [hj])
    rw [this.1, this.2]
    have e : 2 * Real.pi * t * (1 * ((j : ℝ) + 1) / T) + 0 = 2 * Real.pi * (((j : ℝ) + 1) / T) * t := by ring
    rw [e]
    exact ⟨rfl, rfl⟩

/-- The arguments ask for the modes `1/T, 2/T, …`. -/
def Plain (a : Args) : Prop := a.modes = none ∧ a.fmin = none ∧ a.fmax = none ∧ a.logf = false

/-- The phases are zero or follow from a seed. -/
def Fixed (a : Args) : Prop := a.pshift = false ∨ a.pseed ≠ none

theorem freqs_plain {toas : List ℝ} {a : Args} (h : Plain a) {f : List ℝ} {b : Bool}
    (hf : freqs toas a = .ok (f, b)) : ∃ T, b = false ∧
      (∀ n, freqs toas { a with nmodes := n } = .ok (harmonics n T, false)) := by
  obtain ⟨h1, h2, h3, h4⟩ := h
  unfold freqs at hf
  cases hT : tspan toas a with
  | error e => rw [hT] at hf; exact absurd hf (by simp [bind, Except.bind])
  | ok T =>
    rw [hT] at hf
    simp only [bind, Except.bind, h1, h2, h3, h4, and_self, if_true, Except.ok.injEq, Prod.mk.injEq] at hf
    refine ⟨T, hf.2.symm, fun n => ?_⟩
    have hT' : tspan toas { a with nmodes := n } = .ok T := hT
    unfold freqs
    rw [hT']
    simp only [bind, Except.bind, h1, h2, h3, h4, and_self, if_true]

theorem phases_more {seeded : Int → Rng} {rng₁ rng₂ r₁ r₂ : Rng} {toas : List ℝ} {a : Args} (hfix : Fixed a)
    {n m : Nat} (hnm : n ≤ m) {φ φ' : List ℝ} (h : phases seeded rng₁ toas a n = .ok (φ, r₁))
    (h' : phases seeded rng₂ toas a m = .ok (φ', r₂)) : ∃ ψ, φ' = φ ++ ψ := by
  obtain ⟨d, rfl⟩ := Nat.exists_eq_add_of_le hnm
  unfold phases at h h'
  cases hs : a.pseed with
  | some p =>
    rw [hs] at h h'
    simp only at h h'
    cases toas with
    | nil => exact absurd h (by simp)
    | cons t ts =>
      simp only at h h'
      split at h
      · rename_i hr
        rw [if_pos hr] at h'
        simp only [Except.ok.injEq, rngPhases, Prod.mk.injEq] at h h'
        refine ⟨_, by rw [← h.1, ← h'.1, List.range_add, List.map_append]⟩
      · exact absurd h (by simp)
  | none =>
    rcases hfix with hp | hp
    · rw [hs] at h h'
      simp only [hp, Bool.false_eq_true, if_false, Except.ok.injEq, Prod.mk.injEq] at h h'
      exact ⟨List.replicate d 0, by rw [← h.1, ← h'.1, List.replicate_add]⟩
    · exact absurd hs hp

/-- **C65**: a basis with fewer modes is a prefix of the one with more, column by column and frequency by
frequency, also if the phases are shifted from a seed and whatever random numbers were drawn in between.
Overlapping signals therefore share columns. -/
theorem C65_prefix (seeded : Int → Rng) (rng₁ rng₂ : Rng) (toas : List ℝ) (a : Args) (ha : Plain a) (hfix : Fixed a)
    (n m : Nat) (hnm : n ≤ m) (F F' : List (List ℝ)) (fr fr' : List ℝ) (r₁ r₂ : Rng)
    (h : red seeded rng₁ toas { a with nmodes := n } = .ok ((F, fr), r₁))
    (h' : red seeded rng₂ toas { a with nmodes := m } = .ok ((F', fr'), r₂)) :
    fr <+: fr' ∧ List.Forall₂ (fun r r' => r <+: r') F F' := by
  obtain ⟨f, φ, hf, hp, hl, rfl, rfl⟩ := red_ok h
  obtain ⟨f', φ', hf', hp', hl', rfl, rfl⟩ := red_ok h'
  obtain ⟨T, _, hT⟩ := freqs_plain (a := { a with nmodes := n }) ha hf
  have e1 := hT n
  have e2 := hT m
  simp only at e1 e2
  rw [hf] at e1
  rw [hf'] at e2
  simp only [Except.ok.injEq, Prod.mk.injEq, and_true] at e1 e2
  obtain ⟨d, rfl⟩ := Nat.exists_eq_add_of_le hnm
  have hff : ∃ g, f' = f ++ g := ⟨_, by rw [e1, e2, harmonics, harmonics, List.range_add, List.map_append]⟩
  obtain ⟨g, hg⟩ := hff
  have hp2 : phases seeded rng₁ toas a f.length = .ok (φ, r₁) := hp
  have hp2' : phases seeded rng₂ toas a f'.length = .ok (φ', r₂) := hp'
  obtain ⟨ψ, hψ⟩ := phases_more hfix (by rw [hg]; simp) hp2 hp2'
  refine ⟨by rw [hg, rep_append]; exact List.prefix_append _ _, ?_⟩
  rw [List.forall₂_map_left_iff, List.forall₂_map_right_iff]
  apply List.forall₂_same.2
  intro t _
  rw [hg, hψ, row_append _ _ _ _ _ hl.symm]
  exact List.prefix_append _ _

/-- **C65**: whatever the arguments, the sine and cosine columns of one mode satisfy `sin² + cos² = 1` in every
row. -/
theorem C65_unit (seeded : Int → Rng) (rng : Rng) (toas : List ℝ) (a : Args) (F : List (List ℝ)) (fr : List ℝ) (r' : Rng)
    (h : red seeded rng toas a = .ok ((F, fr), r')) :
    ∃ n, fr.length = 2 * n ∧ ∀ r ∈ F, r.length = 2 * n ∧
      ∀ j < n, ∃ s c, r[2 * j]? = some s ∧ r[2 * j + 1]? = some c ∧ s ^ 2 + c ^ 2 = 1 := by
  obtain ⟨f, φ, _, _, hl, rfl, rfl⟩ := red_ok h
  refine ⟨f.length, rep_length _ _, ?_⟩
  intro r hr
  obtain ⟨t, _, rfl⟩ := List.mem_map.1 hr
  refine ⟨row_length _ _ _ hl.symm, fun j hj => ?_⟩
  obtain ⟨h1, h2⟩ := row_get t f φ j f[j] (φ[j]'(by omega)) (by simp [hj]) (by simp [hl, hj])
  exact ⟨_, _, h1, h2, Real.sin_sq_add_cos_sq _⟩

theorem foldl_max (t : ℝ) (ts : List ℝ) : IsGreatest {x | x = t ∨ x ∈ ts} (ts.foldl max t) := by
  induction ts generalizing t with
  | nil => exact ⟨Or.inl rfl, by rintro x (rfl | h) <;> simp_all⟩
  | cons a ts ih =>
    have := ih (max t a)
    refine ⟨?_, ?_⟩
    · rcases this.1 with h | h
      · rw [List.foldl_cons, h]
        rcases max_choice t a with h' | h'
        · exact Or.inl h'
        · right; rw [h']; exact List.mem_cons_self
      · exact Or.inr (List.mem_cons_of_mem _ h)
    · rintro x (rfl | h)
      · exact (le_max_left _ a).trans (this.2 (Or.inl rfl))
      · rcases List.mem_cons.1 h with rfl | h
        · exact (le_max_right t _).trans (this.2 (Or.inl rfl))
        · exact this.2 (Or.inr h)

theorem foldl_min (t : ℝ) (ts : List ℝ) : IsLeast {x | x = t ∨ x ∈ ts} (ts.foldl min t) := by
  induction ts generalizing t with
  | nil => exact ⟨Or.inl rfl, by rintro x (rfl | h) <;> simp_all⟩
  | cons a ts ih =>
    have := ih (min t a)
    refine ⟨?_, ?_⟩
    · rcases this.1 with h | h
      · rw [List.foldl_cons, h]
        rcases min_choice t a with h' | h'
        · exact Or.inl h'
        · right; rw [h']; exact List.mem_cons_self
      · exact Or.inr (List.mem_cons_of_mem _ h)
    · rintro x (rfl | h)
      · exact (this.2 (Or.inl rfl)).trans (min_le_left _ a)
      · rcases List.mem_cons.1 h with rfl | h
        · exact (this.2 (Or.inl rfl)).trans (min_le_right t _)
        · exact this.2 (Or.inr h)

theorem span_ok {toas : List ℝ} {T : ℝ} (h : span toas = .ok T) :
    ∃ lo hi, IsLeast {x | x ∈ toas} lo ∧ IsGreatest {x | x ∈ toas} hi ∧ T = hi - lo := by
  cases toas with
  | nil => exact absurd h (by simp [span])
  | cons t ts =>
    simp only [span, Except.ok.injEq] at h
    have e : {x | x ∈ t :: ts} = {x | x = t ∨ x ∈ ts} := by ext x; simp
    exact ⟨_, _, by rw [e]; exact foldl_min t ts, by rw [e]; exact foldl_max t ts, h.symm⟩

/-- **C65**: without `Tspan` the frequencies are multiples of one over the time from the first to the last
TOA; there has to be a TOA. -/
theorem C65_default_span (seeded : Int → Rng) (rng : Rng) (toas : List ℝ) (n : Nat) :
    (toas = [] → red seeded rng toas { nmodes := n } = .error .valueError) ∧
    (toas ≠ [] → ∃ lo hi, IsLeast {x | x ∈ toas} lo ∧ IsGreatest {x | x ∈ toas} hi ∧
      red seeded rng toas { nmodes := n } = red seeded rng toas { nmodes := n, Tspan := some (hi - lo) }) := by
  refine ⟨?_, ?_⟩
  · rintro rfl
    simp [red, freqs, tspan, span, bind, Except.bind]
  · intro h
    cases toas with
    | nil => exact absurd rfl h
    | cons t ts =>
      obtain ⟨lo, hi, h1, h2, h3⟩ := span_ok (toas := t :: ts) (T := ts.foldl max t - ts.foldl min t) rfl
      refine ⟨lo, hi, h1, h2, ?_⟩
      rw [← h3]
      rfl

/-- **C65**: given bounds equal to the first and the last default frequency, the evenly spaced frequencies are
the default ones. -/
theorem C65_linspace (seeded : Int → Rng) (rng : Rng) (toas : List ℝ) (n : Nat) (T : ℝ) (hT : T ≠ 0) :
    red seeded rng toas { nmodes := n, Tspan := some T, fmin := some (1 / T), fmax := some (n / T) } =
      red seeded rng toas { nmodes := n, Tspan := some T } := by
  have e : linspace (1 / T) (n / T) n = harmonics n T := by
    unfold linspace harmonics
    apply List.map_congr_left
    intro k hk
    rw [List.mem_range] at hk
    rcases Nat.lt_or_ge n 2 with h | h
    · have : k = 0 := by omega
      subst this
      simp
    · have : (n : ℝ) - 1 ≠ 0 := by
        have : (2 : ℝ) ≤ n := by exact_mod_cast h
        linarith
      field_simp
      ring
  have hf : freqs toas { nmodes := n, Tspan := some T, fmin := some (1 / T), fmax := some (n / T) } =
      freqs toas { nmodes := n, Tspan := some T } := by
    simp only [freqs, tspan, bind, Except.bind, Option.getD_some]
    rw [e]
    simp
  unfold red
  rw [hf]
  rfl

/-- **C65**: with `logf` the frequencies are in geometric progression from `fmin` to `fmax`. -/
theorem C65_log (toas : List ℝ) (n : Nat) (T lo hi : ℝ) (hlo : 0 < lo) (hhi : 0 < hi) :
    ∃ f, freqs toas { nmodes := n, Tspan := some T, logf := true, fmin := some lo, fmax := some hi } = .ok (f, false) ∧
      f.length = n ∧ ∀ j < n, f[j]? = some (lo * (hi / lo) ^ ((j : ℝ) / ((n : ℝ) - 1))) := by
  refine ⟨logspace (Real.logb 10 lo) (Real.logb 10 hi) n, by simp [freqs, tspan, bind, Except.bind], by simp [logspace, linspace], ?_⟩
  intro j hj
  simp only [logspace, linspace, List.map_map, List.getElem?_map, List.getElem?_range hj, Option.map_some,
    Function.comp_apply]
  congr 1
  rw [← Real.logb_div hhi.ne' hlo.ne',
    show (j : ℝ) * (Real.logb 10 (hi / lo) / ((n : ℝ) - 1)) = Real.logb 10 (hi / lo) * ((j : ℝ) / ((n : ℝ) - 1)) by ring,
    Real.rpow_add (by norm_num), Real.rpow_logb (by norm_num) (by norm_num) hlo, Real.rpow_mul (by norm_num),
    Real.rpow_logb (by norm_num) (by norm_num) (div_pos hhi hlo)]

/-- The bounds that are not given: one over the span, and the number of modes over the span. -/
theorem C65_defaults (toas : List ℝ) (n : Nat) (T lo hi : ℝ) (hT : 0 < T) (hn : 0 < n) :
    (freqs toas { nmodes := n, Tspan := some T, fmin := some lo } =
      freqs toas { nmodes := n, Tspan := some T, fmin := some lo, fmax := some (n / T) }) ∧
    (freqs toas { nmodes := n, Tspan := some T, fmax := some hi } =
      freqs toas { nmodes := n, Tspan := some T, fmin := some (1 / T), fmax := some hi }) ∧
    ∃ f, freqs toas { nmodes := n, Tspan := some T, logf := true } = .ok (f, false) ∧
      f.length = n ∧ ∀ j < n, f[j]? = some ((n : ℝ) ^ ((j : ℝ) / ((n : ℝ) - 1)) / T) := by
  have hn' : (0 : ℝ) < n := by exact_mod_cast hn
  refine ⟨by simp [freqs, tspan, bind, Except.bind], by simp [freqs, tspan, bind, Except.bind], ?_⟩
  obtain ⟨f, hf, hl, hj⟩ := C65_log toas n T (1 / T) (n / T) (by positivity) (by positivity)
  refine ⟨f, ?_, hl, fun j h => ?_⟩
  · rw [← hf]; simp [freqs, tspan, bind, Except.bind]
  · rw [hj j h, show (n / T / (1 / T) : ℝ) = n by field_simp]
    congr 1; ring

/-- C65 fails when bounds are given: the frequencies of the basis with fewer modes are not a prefix. -/
theorem C65_bounds_false (seeded : Int → Rng) (rng : Rng) : ∃ (a : Args) (toas : List ℝ) (F F' : List (List ℝ)) (fr fr' : List ℝ),
    red seeded rng toas { a with nmodes := 2 } = .ok ((F, fr), rng) ∧
    red seeded rng toas { a with nmodes := 3 } = .ok ((F', fr'), rng) ∧ ¬ fr <+: fr' := by
  refine ⟨{ Tspan := some 1, fmin := some 1, fmax := some 2 }, [], [], [], rep 2 (linspace 1 2 2),
    rep 2 (linspace 1 2 3), ?_, ?_, ?_⟩
  · simp [red, freqs, tspan, phases, bind, Except.bind]
  · simp [red, freqs, tspan, phases, bind, Except.bind]
  · rintro ⟨s, hs⟩
    have := congrArg (fun l => l[2]?) hs
    simp [rep, linspace, List.range_succ] at this
    norm_num at this

/-- C65 fails for random phases without a seed: two calls with the same arguments, the second after the first,
give different matrices for some state of the generator. -/
theorem C65_pshift_false (seeded : Int → Rng) (t : ℝ) (ts : List ℝ) (n : Nat) (T : ℝ) :
    ∃ rng r₁ r₂ F₁ F₂ fr, red seeded rng (t :: ts) { nmodes := n + 1, Tspan := some T, pshift := true } = .ok ((F₁, fr), r₁) ∧
      red seeded r₁ (t :: ts) { nmodes := n + 1, Tspan := some T, pshift := true } = .ok ((F₂, fr), r₂) ∧ F₁ ≠ F₂ := by
  let f : List ℝ := harmonics (n + 1) T
  have hf : freqs (t :: ts) { nmodes := n + 1, Tspan := some T, pshift := true } = .ok (f, false) := by
    simp [freqs, tspan, bind, Except.bind, f]
  have hl : f.length = n + 1 := by simp [f, harmonics]
  have hp : ∀ rng : Rng, phases seeded rng (t :: ts) { nmodes := n + 1, Tspan := some T, pshift := true } f.length =
      .ok (rngPhases rng (n + 1)) := by intro rng; simp [phases, hl]
  let rng : Rng := fun i => if i < n + 1 then 0 else 1 / 2
  refine ⟨rng, _, _, _, _, _, red_of hf (hp rng), red_of hf (hp _), ?_⟩
  intro h
  have h0 : row t f (rngPhases rng (n + 1)).1 = row t f (rngPhases (rngPhases rng (n + 1)).2 (n + 1)).1 := by
    simp only [List.map_cons, List.cons.injEq] at h
    exact h.1
  have h1 := row_get t f (rngPhases rng (n + 1)).1 0 (1 * ((0 : ℕ) + 1) / T) 0 (by simp [f, harmonics])
    (by simp [rngPhases, rng])
  have h2 := row_get t f (rngPhases (rngPhases rng (n + 1)).2 (n + 1)).1 0 (1 * ((0 : ℕ) + 1) / T) Real.pi (by simp [f, harmonics])
    (by simp [rngPhases, rng]; ring)
  rw [h0, h2.1, h2.2] at h1
  simp only [Option.some.injEq, add_zero, Real.sin_add_pi, Real.cos_add_pi] at h1
  have := Real.sin_sq_add_cos_sq (2 * Real.pi * t * (1 * ((0 : ℕ) + 1) / T))
  have hs : Real.sin (2 * Real.pi * t * (1 * ((0 : ℕ) + 1) / T)) = 0 := by linarith [h1.1]
  have hc : Real.cos (2 * Real.pi * t * (1 * ((0 : ℕ) + 1) / T)) = 0 := by linarith [h1.2]
  rw [hs, hc] at this
  norm_num at this

/-- C65: the documented list of frequencies always raises; an array is needed. -/
theorem C65_list_false (seeded : Int → Rng) (rng : Rng) (t : ℝ) (ts f : List ℝ) (n : Nat) (T : Option ℝ) :
    red seeded rng (t :: ts) { nmodes := n, Tspan := T, modes := some (.list f) } = .error .typeError ∧
    ∃ F, red seeded rng (t :: ts) { nmodes := n, Tspan := T, modes := some (.array f) } = .ok ((F, rep 2 f), rng) := by
  cases T <;> simp [red, freqs, tspan, phases, span, bind, Except.bind]

/-! ## Seeded phases -/

/-- **C89**: with a seed the result does not depend on the state of the generator. -/
theorem C89_reproducible (seeded : Int → Rng) (rng₁ rng₂ : Rng) (toas : List ℝ) (a : Args) (h : a.pseed ≠ none) :
    red seeded rng₁ toas a = red seeded rng₂ toas a := by
  unfold red phases
  cases hs : a.pseed with
  | none => exact absurd hs h
  | some p => rfl

/-- **C89**: without random phases the state of the generator is left alone. -/
theorem C89_untouched (seeded : Int → Rng) (rng : Rng) (toas : List ℝ) (a : Args) (h : a.pseed = none) (h' : a.pshift = false)
    (F : List (List ℝ)) (fr : List ℝ) (r' : Rng) (hr : red seeded rng toas a = .ok ((F, fr), r')) : r' = rng := by
  obtain ⟨f, φ, _, hp, _⟩ := red_ok hr
  unfold phases at hp
  rw [h, h'] at hp
  simp only [Bool.false_eq_true, if_false, Except.ok.injEq, Prod.mk.injEq] at hp
  exact hp.2.symm

/-- C89 fails for seeded phases: all that is drawn after the call is determined by the seed, the same for every
state before the call. -/
theorem C89_state_false (seeded : Int → Rng) (t : ℝ) (ts : List ℝ) (n : Nat) (T : ℝ) (p : Int)
    (h : 0 ≤ trunc (t / 17) + p ∧ trunc (t / 17) + p < 2 ^ 32) :
    ∃ F fr r', (∀ i, r' i = seeded (trunc (t / 17) + p) (n + i)) ∧
      ∀ rng, red seeded rng (t :: ts) { nmodes := n, Tspan := some T, pseed := some p } = .ok ((F, fr), r') := by
  have hf : freqs (t :: ts) { nmodes := n, Tspan := some T, pseed := some p } =
      .ok (harmonics n T, false) := by simp [freqs, tspan, bind, Except.bind]
  have hp : ∀ rng, phases seeded rng (t :: ts) { nmodes := n, Tspan := some T, pseed := some p }
      (harmonics n T).length = .ok (rngPhases (seeded (trunc (t / 17) + p)) n) := by
    intro rng
    simp only [phases, harmonics, List.length_map, List.length_range]
    rw [if_pos h]
  exact ⟨_, _, _, fun i => rfl, fun rng => red_of hf (hp rng)⟩

/-- C89: pulsars whose first TOAs lie in the same interval of 17 seconds get the same phases. -/
theorem C89_same_seed (seeded : Int → Rng) (rng : Rng) (t t' : ℝ) (ts ts' : List ℝ) (a : Args) (n : Nat) (h : a.pseed ≠ none)
    (ht : ⌊t / 17⌋ = ⌊t' / 17⌋) (h0 : 0 ≤ t) (h0' : 0 ≤ t') :
    phases seeded rng (t :: ts) a n = phases seeded rng (t' :: ts') a n := by
  unfold phases
  cases hs : a.pseed with
  | none => exact absurd hs h
  | some p =>
    have : trunc (t / 17) = trunc (t' / 17) := by
      rw [trunc, trunc, if_pos (by positivity), if_pos (by positivity), ht]
    simp only [this]

/-! ## Scaled and masked bases -/

/-- `F'` is `F` with row `i` multiplied by `w i`. -/
def Scaled (w : Nat → ℝ) (F F' : List (List ℝ)) : Prop :=
  F'.length = F.length ∧ ∀ (i : Nat) (r : List ℝ), F[i]? = some r → F'[i]? = some (r.map fun y => y * w i)

theorem scaled_zip {w : List ℝ} {F : List (List ℝ)} (h : w.length = F.length) (g : Nat → ℝ)
    (hg : ∀ (i : Nat) (x : ℝ), w[i]? = some x → x = g i) :
    Scaled g F (List.zipWith (fun x r => r.map fun y => y * x) w F) := by
  refine ⟨by simp [h], fun i r hr => ?_⟩
  have hi : i < F.length := by
    rcases List.getElem?_eq_some_iff.1 hr with ⟨h, _⟩; exact h
  have hw : w[i]? = some (w[i]'(by omega)) := by simp [h, hi]
  rw [List.getElem?_zipWith, hw, hr]
  simp only [Option.some.injEq]
  rw [hg i _ hw]

theorem scaleRows_eq {w : List ℝ} {F : List (List ℝ)} (h : w.length = F.length) :
    scaleRows w F = .ok (List.zipWith (fun x r => r.map fun y => y * x) w F) := by
  unfold scaleRows
  rw [if_pos h]

theorem scaleRowsIn_eq {w : List ℝ} {F : List (List ℝ)} (h : w.length = F.length) :
    scaleRowsIn w F = .ok (List.zipWith (fun x r => r.map fun y => y * x) w F) := by
  unfold scaleRowsIn
  rw [if_pos h]

theorem red_rows {seeded : Int → Rng} {rng rng' : Rng} {toas : List ℝ} {a : Args} {F : List (List ℝ)} {fr : List ℝ}
    (h : red seeded rng toas a = .ok ((F, fr), rng')) : F.length = toas.length := by
  obtain ⟨f, φ, _, _, _, rfl, _⟩ := red_ok h
  simp

section Scaling

variable (seeded : Int → Rng) (rng rng' : Rng) (toas nu : List ℝ) (a : Args) (F : List (List ℝ)) (fr : List ℝ)

/-- **C88**: the DM basis is the achromatic basis with the row of the TOA at radio frequency `ν` multiplied by
`(fref / ν)²`. -/
theorem C88_dm (fref : ℝ) (hn : nu.length = toas.length)
    (h : red seeded rng toas { a with pseed := none } = .ok ((F, fr), rng')) :
    ∃ F', dm seeded rng toas nu a fref = .ok ((F', fr), rng') ∧
      Scaled (fun i => (fref / nu.getD i 0) ^ 2) F F' := by
  have hl := red_rows h
  refine ⟨_, ?_, scaled_zip (w := nu.map fun v => (fref / v) ^ 2) (by simp [hn, hl]) _ ?_⟩
  · unfold dm
    rw [h]
    simp only [bind, Except.bind]
    rw [scaleRows_eq (by simp [hn, hl])]
  · intro i x hx
    simp only [List.getElem?_map, Option.map_eq_some_iff] at hx
    obtain ⟨v, hv, rfl⟩ := hx
    simp [List.getD, hv]

/-- **C88**: the chromatic basis of index `idx` multiplies the row at `ν` by `(1400 / ν)^idx`. -/
theorem C88_chromatic (idx : ℝ) (hn : nu.length = toas.length)
    (h : red seeded rng toas { a with pseed := none, pshift := false } = .ok ((F, fr), rng')) :
    ∃ F', chromatic seeded rng toas nu a idx = .ok ((F', fr), rng') ∧
      Scaled (fun i => (1400 / nu.getD i 0) ^ idx) F F' := by
  have hl := red_rows h
  refine ⟨_, ?_, scaled_zip (w := nu.map fun v => (1400 / v) ^ idx) (by simp [hn, hl]) _ ?_⟩
  · unfold chromatic
    rw [h]
    simp only [bind, Except.bind]
    rw [scaleRows_eq (by simp [hn, hl])]
  · intro i x hx
    simp only [List.getElem?_map, Option.map_eq_some_iff] at hx
    obtain ⟨v, hv, rfl⟩ := hx
    simp [List.getD, hv]

/-- **C88**: DM variations at reference frequency 1400 MHz are chromatic variations of index two. -/
theorem C88_dm_chromatic (hp : a.pshift = false) :
    dm seeded rng toas nu a 1400 = chromatic seeded rng toas nu a 2 := by
  unfold dm chromatic
  rw [show ({ a with pseed := none } : Args) = { a with pseed := none, pshift := false } by rw [hp]]
  simp only [Real.rpow_two]

/-- **C88**: at index two the TempoNest basis is the DM basis times one constant. -/
theorem C88_dm_tn (fref : ℝ) (hn : nu.length = toas.length)
    (h : red seeded rng toas { a with pseed := none } = .ok ((F, fr), rng')) :
    ∃ F₁ F₂, dm seeded rng toas nu a fref = .ok ((F₁, fr), rng') ∧
      dmTn seeded rng toas nu a fref 2 = .ok ((F₂, fr), rng') ∧
      Scaled (fun _ => Real.sqrt 12 * Real.pi / (1400 ^ 2 * 2.41e-4)) F₁ F₂ := by
  have hl := red_rows h
  refine ⟨List.zipWith (fun x r => r.map fun y => y * x) (nu.map fun v => (fref / v) ^ 2) F,
    List.zipWith (fun x r => r.map fun y => y * x) (nu.map fun v => tnFactor ((fref / v) ^ (2 : ℝ))) F, ?_, ?_, ?_⟩
  · unfold dm
    rw [h]
    simp only [bind, Except.bind]
    rw [scaleRows_eq (by simp [hn, hl])]
  · unfold dmTn
    rw [h]
    simp only [bind, Except.bind]
    rw [scaleRows_eq (by simp [hn, hl])]
  · refine ⟨by simp, fun i r hr => ?_⟩
    simp only [List.getElem?_zipWith, List.getElem?_map] at hr ⊢
    cases hv : nu[i]? with
    | none => rw [hv] at hr; exact absurd hr (by simp)
    | some v =>
      cases hF : F[i]? with
      | none => rw [hv, hF] at hr; exact absurd hr (by simp)
      | some q =>
        rw [hv, hF] at hr
        simp only [Option.map_some, Option.some.injEq] at hr ⊢
        rw [← hr, List.map_map]
        apply List.map_congr_left
        intro y _
        simp only [Function.comp_apply, tnFactor, Real.rpow_two]
        ring

/-- **C88**: the envelope multiplies each row by a positive number, at most the amplitude. -/
theorem C88_env (log10Amp log10Q t0 : ℝ)
    (h : red seeded rng toas { a with pseed := none, pshift := false } = .ok ((F, fr), rng')) :
    ∃ F' w, env seeded rng toas a log10Amp log10Q t0 = .ok ((F', fr), rng') ∧ Scaled w F F' ∧
      (∀ i, i < toas.length → 0 < w i ∧ w i ≤ (10 : ℝ) ^ log10Amp) ∧
      ∀ i, toas[i]? = some t0 → w i = (10 : ℝ) ^ log10Amp := by
  have hl := red_rows h
  have hA : (0 : ℝ) < (10 : ℝ) ^ log10Amp := Real.rpow_pos_of_pos (by norm_num) _
  refine ⟨_, fun i => (10 : ℝ) ^ log10Amp * Real.exp (-(toas.getD i 0 - t0) ^ 2 / 2 / ((10 : ℝ) ^ log10Q * 86400) ^ 2),
    ?_, scaled_zip (w := toas.map fun t => (10 : ℝ) ^ log10Amp *
      Real.exp (-(t - t0) ^ 2 / 2 / ((10 : ℝ) ^ log10Q * 86400) ^ 2)) (by simp [hl]) _ ?_, ?_, ?_⟩
  · unfold env
    rw [h]
    simp only [bind, Except.bind]
    rw [scaleRows_eq (by simp [hl])]
  · intro i x hx
    simp only [List.getElem?_map, Option.map_eq_some_iff] at hx
    obtain ⟨v, hv, rfl⟩ := hx
    simp [List.getD, hv]
  · intro i _
    refine ⟨by positivity, ?_⟩
    apply mul_le_of_le_one_right hA.le
    rw [Real.exp_le_one_iff, div_div, neg_div]
    exact neg_nonpos.2 (by positivity)
  · intro i hi
    simp [List.getD, hi]

/-- **C88**: the ephemeris basis has six columns for each mode: the sine times the three coordinates of the
position, then the cosine times them; the frequencies are repeated accordingly. -/
theorem C88_ephem (pos : ℝ × ℝ × ℝ) (n : Nat) (T : Option ℝ)
    (h : red seeded rng toas { nmodes := n, Tspan := T } = .ok ((F, fr), rng')) :
    ∃ F' fr', ephem seeded rng toas pos n T = .ok ((F', fr'), rng') ∧ F'.length = F.length ∧
      fr'.length = 3 * fr.length ∧ (∀ (j c : Nat), c < 3 → fr'[3 * j + c]? = fr[j]?) ∧
      ∀ (i : Nat) (r : List ℝ), F[i]? = some r → ∃ r' : List ℝ, F'[i]? = some r' ∧ r'.length = 3 * r.length ∧
        ∀ (j : Nat) (s : ℝ), r[j]? = some s → r'[3 * j]? = some (s * pos.1) ∧ r'[3 * j + 1]? = some (s * pos.2.1) ∧
          r'[3 * j + 2]? = some (s * pos.2.2) := by
  refine ⟨F.map (ephemRow pos), rep 3 fr, ?_, ?_, ?_, ?_, ?_⟩
  · unfold ephem
    rw [h]
    rfl
  · simp
  · exact rep_length 3 fr
  · intro j c hc
    exact rep_get 3 fr j c hc
  · intro i r hr
    refine ⟨ephemRow pos r, by simp [hr], ?_, ?_⟩
    · clear hr
      induction r with
      | nil => simp [ephemRow]
      | cons x r ih => simp only [ephemRow, List.flatMap_cons, List.length_append, List.length_cons] at ih ⊢; simp at ih ⊢; omega
    · clear hr
      intro j s hs
      induction r generalizing j with
      | nil => simp at hs
      | cons x r ih =>
        have e : ephemRow pos (x :: r) = x * pos.1 :: x * pos.2.1 :: x * pos.2.2 :: ephemRow pos r := by simp [ephemRow]
        rw [e]
        cases j with
        | zero =>
          simp at hs
          subst hs
          simp
        | succ j =>
          have := ih j (by simpa using hs)
          rw [show 3 * (j + 1) = 3 * j + 1 + 1 + 1 by ring]
          simpa using this

end Scaling

section General

variable (seeded : Int → Rng) (rng rng' : Rng) (toas nu : List ℝ) (flags : Dict String (List String)) (a : Args)

/-- **C88**: without a flag value and index the general basis is the achromatic one; with an index it is the
chromatic one. -/
theorem C88_general (g : Gen) (hg : g.flagval = none) (ht : g.tndm = false) (hp : a.pshift = false) (hs : a.pseed = none)
    (hn : nu.length = toas.length) :
    (g.idx = none → general seeded rng toas nu flags g a = red seeded rng toas a) ∧
    ∀ i, g.idx = some i → general seeded rng toas nu flags g a = chromatic seeded rng toas nu a i := by
  have ea : ({ a with pseed := none, pshift := false } : Args) = a := by rw [← hs, ← hp]
  refine ⟨fun hi => ?_, fun i hi => ?_⟩
  · unfold general
    rw [hg, hi]
    simp only [bind, Except.bind]
    cases h : red seeded rng toas a with
    | error e => rfl
    | ok x => rfl
  · unfold general chromatic
    rw [hg, hi, ht, ea]
    simp only [bind, Except.bind]
    cases h : red seeded rng toas a with
    | error e => rfl
    | ok x =>
      obtain ⟨⟨F, fr⟩, r⟩ := x
      simp only [Bool.false_eq_true, if_false]
      rw [scaleRows_eq (by simp [hn, red_rows h]), scaleRowsIn_eq (by simp [hn, red_rows h])]

/-- **C88**: a flag value keeps the rows of the TOAs that have it and sets the others to zero. -/
theorem C88_mask (g : Gen) (v : String) (hg : g.flagval = some v) (hT : g.psrTspan = true) (fl : List String)
    (hfl : flags.get? g.flagname = some fl) (hl : fl.length = toas.length) (F : List (List ℝ)) (fr : List ℝ)
    (h : general seeded rng toas nu flags { g with flagval := none } a = .ok ((F, fr), rng')) (hF : F.length = toas.length) :
    ∃ F', general seeded rng toas nu flags g a = .ok ((F', fr), rng') ∧
      Scaled (fun i => if fl[i]? = some v then 1 else 0) F F' := by
  refine ⟨List.zipWith (fun x r => r.map fun y => if x = v then y else 0) fl F, ?_, by simp [hl, hF], fun i r hr => ?_⟩
  · unfold general at h ⊢
    simp only [hg, hT, hfl, bind, Except.bind] at h ⊢
    cases hr : red seeded rng toas a with
    | error e => simp only [hr] at h; exact absurd h (by simp)
    | ok x =>
      obtain ⟨⟨F₀, fr₀⟩, r⟩ := x
      simp only [hr] at h ⊢
      cases hi : g.idx with
      | none =>
        simp only [hi, Except.ok.injEq, Prod.mk.injEq] at h ⊢
        rw [h.1.1, h.1.2, h.2]
        simp
      | some i =>
        simp only [hi] at h ⊢
        generalize scaleRowsIn _ F₀ = X at h ⊢
        cases X with
        | error e => exact absurd h (by simp)
        | ok F₁ =>
          simp only [Except.ok.injEq, Prod.mk.injEq] at h ⊢
          rw [h.1.1, h.1.2, h.2]
          simp
  · have hi : i < F.length := by
      rcases List.getElem?_eq_some_iff.1 hr with ⟨h, _⟩; exact h
    have hw : fl[i]? = some (fl[i]'(by omega)) := by simp [hl, hF ▸ hi]
    rw [List.getElem?_zipWith, hw, hr]
    simp only [Option.some.injEq]
    congr 1
    funext y
    by_cases hv : fl[i]'(by omega) = v
    · rw [if_pos hv, if_pos (by rw [hw, hv]), mul_one]
    · rw [if_neg hv, if_neg (by rw [hw]; simpa using hv), mul_zero]

/-- **C88**: with its own span the selection takes the time from its own first to its own last TOA, whatever
`Tspan` was given; an empty selection raises. -/
theorem C88_own_span (g : Gen) (v : String) (hg : g.flagval = some v) (hT : g.psrTspan = false) (fl : List String)
    (hfl : flags.get? g.flagname = some fl) :
    ((∀ tf ∈ toas.zip fl, tf.2 ≠ v) → general seeded rng toas nu flags g a = .error .valueError) ∧
    ((∃ tf ∈ toas.zip fl, tf.2 = v) → ∃ lo hi, IsLeast {t | (t, v) ∈ toas.zip fl} lo ∧
      IsGreatest {t | (t, v) ∈ toas.zip fl} hi ∧
      general seeded rng toas nu flags g a =
        general seeded rng toas nu flags { g with psrTspan := true } { a with Tspan := some (hi - lo) }) := by
  have hset : {t | t ∈ selected toas fl v} = {t | (t, v) ∈ toas.zip fl} := by
    ext t
    simp [selected]
  refine ⟨fun h => ?_, fun h => ?_⟩
  · have : selected toas fl v = [] := by
      unfold selected
      rw [List.map_eq_nil_iff, List.filter_eq_nil_iff]
      intro tf htf
      simpa using h tf htf
    unfold general
    simp [hg, hT, hfl, this, span, bind, Except.bind, Except.map]
  · obtain ⟨⟨t, f⟩, h1, h2⟩ := h
    have hne : t ∈ selected toas fl v := by
      simp only at h2
      subst h2
      simp [selected, h1]
    cases hs : selected toas fl v with
    | nil => rw [hs] at hne; simp at hne
    | cons x xs =>
      obtain ⟨lo, hi, hlo, hhi, e⟩ := span_ok (toas := x :: xs) (T := xs.foldl max x - xs.foldl min x) rfl
      rw [← hs, hset] at hlo hhi
      refine ⟨lo, hi, hlo, hhi, ?_⟩
      rw [← e]
      unfold general
      simp only [hg, hT, hfl, hs, span, bind, Except.bind, Except.map]

/-- **C88**: a flag that the pulsar does not have raises. -/
theorem C88_missing_flag (g : Gen) (v : String) (hg : g.flagval = some v) (hi : g.idx = none)
    (hfl : flags.get? g.flagname = none) (T : ℝ) (hT : a.Tspan = some T) (hm : a.modes = none) (hs : a.pseed = none) :
    general seeded rng toas nu flags g a = .error .keyError := by
  unfold general
  rw [hg, hfl, hi]
  cases hp : g.psrTspan with
  | false => rfl
  | true =>
    simp only [bind, Except.bind]
    have : ∃ x, red seeded rng toas a = .ok x := by
      have : ∃ f, freqs toas a = .ok (f, false) := by
        unfold freqs tspan
        rw [hT, hm]
        simp only [bind, Except.bind]
        split
        · exact ⟨_, rfl⟩
        · split
          · exact ⟨_, rfl⟩
          · exact ⟨_, rfl⟩
      obtain ⟨f, hf⟩ := this
      have : ∃ p, phases seeded rng toas a f.length = .ok p := by
        unfold phases
        rw [hs]
        simp only
        split
        · exact ⟨_, rfl⟩
        · exact ⟨_, rfl⟩
      obtain ⟨⟨φ, r⟩, hp⟩ := this
      exact ⟨_, red_of hf hp⟩
    obtain ⟨⟨⟨F, fr⟩, r⟩, hr⟩ := this
    rw [hr]

end General

/-! ## Cases meeting the hypotheses -/

example : Plain { nmodes := 4, pseed := some 3 } ∧ Fixed { nmodes := 4, pseed := some 3 } := by
  simp [Plain, Fixed]

/-- Two TOAs, two modes. -/
example (seeded : Int → Rng) (rng : Rng) : ∃ F fr r', red seeded rng [34, 100] { nmodes := 2, pseed := some 3, Tspan := some 66 } =
    .ok ((F, fr), r') :=
  let ⟨F, fr, r', _, h⟩ := C89_state_false seeded 34 [100] 2 66 3 (by
    have : trunc (34 / 17) = 2 := by norm_num [trunc]
    rw [this]; norm_num)
  ⟨F, fr, r', h rng⟩

example : ⌊(34 : ℝ) / 17⌋ = ⌊(50 : ℝ) / 17⌋ := by
  have h1 : ⌊(34 : ℝ) / 17⌋ = 2 := by norm_num
  have h2 : ⌊(50 : ℝ) / 17⌋ = 2 := by rw [Int.floor_eq_iff]; norm_num
  rw [h1, h2]

example (seeded : Int → Rng) (rng : Rng) : ∃ F fr, general seeded rng [1, 5, 7] [1400, 700, 350]
    [("group", ["A", "B", "A"])] { flagval := some "A", idx := some 2 } { nmodes := 2, Tspan := some 6 } = .ok ((F, fr), rng) := by
  obtain ⟨F, fr, h, _⟩ := C65_columns seeded rng [1, 5, 7] 2 6
  obtain ⟨F', h', _⟩ := C88_chromatic seeded rng rng [1, 5, 7] [1400, 700, 350] { nmodes := 2, Tspan := some 6 } F fr 2 rfl h
  have hg := (C88_general seeded rng [1, 5, 7] [1400, 700, 350] [("group", ["A", "B", "A"])] { nmodes := 2, Tspan := some 6 }
    { idx := some 2 } rfl rfl rfl rfl rfl).2 2 rfl
  rw [h'] at hg
  have hl : F'.length = 3 := by
    rename_i hs
    exact hs.1.trans (red_rows h)
  obtain ⟨F'', h'', _⟩ := C88_mask seeded rng rng [1, 5, 7] [1400, 700, 350] [("group", ["A", "B", "A"])]
    { nmodes := 2, Tspan := some 6 } { flagval := some "A", idx := some 2 } "A" rfl rfl ["A", "B", "A"] rfl rfl F' fr hg hl
  exact ⟨F'', fr, h''⟩

end Verif.Bases
