import Mathlib.Analysis.SpecialFunctions.Integrals.Basic
import Verif.Model.EphemSignal
import Verif.Props.Ephem
import Verif.Props.Function

/-!
# The options of the ephemeris signal

C159.
-/

namespace Verif.EphemSignal

open Verif Verif.Fun Verif.Ephem Verif.Orf

/-! ## Specification -/

/-- What the option `o` of this name stands for when the parameters have the values `params`: the parameter of that name if it is `True`, nothing (`zero`) if it is `False`,
the value of a parameter that is given, or a given value. -/
def StandsFor (params : Dict String Value) (name : String) (zero : Value) (o : Opt) (v : Value) : Prop :=
  match o with
  | .bool true => Dict.get? params name = some v
  | .bool false => v = zero
  | .par p => Dict.get? params p.name = some v ∨ Dict.get? params p.name = none ∧ p.const = some v
  | .value w => v = w

/-- The options stand for these arguments of the delay. -/
structure Means (params : Dict String Value) (o : Options) (par : Params) : Prop where
  rate : StandsFor params "frame_drift_rate" (.num 0) o.frame_drift_rate (.num par.frame_drift_rate)
  jupiter : StandsFor params "d_jupiter_mass" (.num 0) o.d_jupiter_mass (.num par.d_jupiter_mass)
  saturn : StandsFor params "d_saturn_mass" (.num 0) o.d_saturn_mass (.num par.d_saturn_mass)
  uranus : StandsFor params "d_uranus_mass" (.num 0) o.d_uranus_mass (.num par.d_uranus_mass)
  neptune : StandsFor params "d_neptune_mass" (.num 0) o.d_neptune_mass (.num par.d_neptune_mass)
  jup : StandsFor params "jup_orb_elements" (.vec 0) o.jup_orb_elements (.vec par.jup_orb_elements)
  sat : StandsFor params "sat_orb_elements" (.vec 0) o.sat_orb_elements (.vec par.sat_orb_elements)

/-- The options by name. -/
def Options.list (o : Options) : List (String × Opt) :=
  [("frame_drift_rate", o.frame_drift_rate), ("d_jupiter_mass", o.d_jupiter_mass), ("d_saturn_mass", o.d_saturn_mass), ("d_uranus_mass", o.d_uranus_mass),
   ("d_neptune_mass", o.d_neptune_mass), ("jup_orb_elements", o.jup_orb_elements), ("sat_orb_elements", o.sat_orb_elements)]

/-- The variance of a parameter. -/
noncomputable def Prior.variance : Prior → ℝ
  | .uniform pmin pmax => ∫ x in pmin..pmax, (x - (pmin + pmax) / 2) ^ 2 / (pmax - pmin)
  | .normal _ sigma => sigma ^ 2

/-! ## Functions without nested Functions -/

/-- No keyword holds a Function. -/
def Flat {V : Type} : Items V → Prop
  | .nil => True
  | .cons _ (.fn _) _ => False
  | .cons _ _ rest => Flat rest

theorem params_flat {V : Type} (its : Items V) (hf : Flat its) (hn : its.keys.Nodup) (acc : Dict String (ParRef V)) (k : String) :
    Dict.get? (its.params acc) k = match its.find? k with
      | some (.par p) => some p
      | _ => Dict.get? acc k := by
  match its with
  | .nil => simp [Items.params, Items.find?]
  | .cons kw (.fn f) rest => exact hf.elim
  | .cons kw (.val v) rest =>
    have hn' : kw ∉ rest.keys ∧ rest.keys.Nodup := List.nodup_cons.1 hn
    rw [Items.params, Item.params, params_flat rest hf hn'.2 acc k, Items.find?]
    by_cases h : kw = k
    · subst h
      rw [if_pos rfl]
      cases hc : rest.find? kw with
      | none => rfl
      | some it => exact absurd (find?_mem rest _ _ hc) hn'.1
    · rw [if_neg h]
  | .cons kw (.par p) rest =>
    have hn' : kw ∉ rest.keys ∧ rest.keys.Nodup := List.nodup_cons.1 hn
    rw [Items.params, Item.params, params_flat rest hf hn'.2 _ k, Items.find?]
    by_cases h : kw = k
    · subst h
      rw [if_pos rfl]
      cases hc : rest.find? kw with
      | none => simp [Dict.get?_set]
      | some it => exact absurd (find?_mem rest _ _ hc) hn'.1
    · rw [if_neg h, Dict.get?_set]
      rw [if_neg h]

theorem no_fn {V : Type} (its : Items V) (hf : Flat its) (k : String) (f : Fn V) : its.find? k ≠ some (.fn f) := by
  match its with
  | .nil => simp [Items.find?]
  | .cons kw (.fn f) rest => exact hf.elim
  | .cons kw (.val v) rest =>
    rw [Items.find?]
    split
    · simp
    · exact no_fn rest hf k f
  | .cons kw (.par p) rest =>
    rw [Items.find?]
    split
    · simp
    · exact no_fn rest hf k f

theorem not_key {V : Type} (its : Items V) (k : String) (h : its.find? k = none) : k ∉ its.keys := by
  match its with
  | .nil => simp [Items.keys]
  | .cons kw it rest =>
    rw [Items.find?] at h
    split at h
    · cases h
    rename_i hk
    rw [Items.keys, List.mem_cons, not_or]
    exact ⟨Ne.symm hk, not_key rest k h⟩

/-- The value a keyword gets. -/
def given {V : Type} (params : Dict String V) : Option (Item V) → Option V
  | some (.par p) => parValue p params
  | some (.val v) => some v
  | _ => none

/-- A Function without nested Functions calls its body with the value of each keyword. -/
theorem flat_call {V : Type} (body : Body V) (fargs : List String) (psr : Option V) (its : Items V) (hf : Flat its) (hn : its.keys.Nodup) (hp : "psr" ∉ its.keys)
    (params : Dict String V) :
    ∃ D, (Fn.mk body fargs psr its []).call [] [] params = body [] D ∧ ∀ k, k ≠ "psr" → Dict.get? D k = given params (its.find? k) := by
  rcases C34_precedence body fargs psr its [] [] [] params hn hp with ⟨e, -, k, f, h, -⟩ | ⟨D, h, -, -, h1, h2, -⟩
  · exact absurd h (no_fn its hf k f)
  refine ⟨D, h, fun k hk => ?_⟩
  cases hc : its.find? k with
  | none =>
    exact h2 k (not_key its k hc) hk rfl
  | some it =>
    obtain ⟨seen, -, h3⟩ := h1 k it hc rfl
    have hpar : (Fn.mk body fargs psr its []).params = its.params [] := by rw [Fn.params]
    have hd : Dict.get? (Dict.update its.defaults []) k = _ := defaults_get its hn k it hc
    rw [ruleValue, hpar, params_flat its hf hn, hc, hd] at h3
    cases it with
    | fn f => exact absurd hc (no_fn its hf k f)
    | val v =>
      simp only [Dict.get?] at h3
      exact (Except.ok.inj h3).symm
    | par p =>
      simp only at h3
      rw [given, parValue]
      cases hq : Dict.get? params p.name with
      | none =>
        rw [hq] at h3
        exact (Except.ok.inj h3).symm
      | some v =>
        rw [hq] at h3
        exact (Except.ok.inj h3).symm

/-! ## The signal -/

theorem item_flat (name : String) (o : Opt) : (∃ p, item name o = .par p) ∨ ∃ v, item name o = .val v := by
  rcases o with ⟨_ | _⟩ | p | v
  exacts [.inr ⟨_, rfl⟩, .inl ⟨_, rfl⟩, .inl ⟨_, rfl⟩, .inr ⟨_, rfl⟩]

theorem flat_cons (kw name : String) (o : Opt) (rest : Items Value) (h : Flat rest) : Flat (.cons kw (item name o) rest) := by
  rcases item_flat name o with ⟨p, e⟩ | ⟨v, e⟩ <;> rw [e] <;> exact h

theorem items_flat (o : Options) : Flat (items o) :=
  flat_cons _ _ _ _ <| flat_cons _ _ _ _ <| flat_cons _ _ _ _ <| flat_cons _ _ _ _ <| flat_cons _ _ _ _ <| flat_cons _ _ _ _ <| flat_cons _ _ _ _ trivial

theorem items_keys (o : Options) : (items o).keys = ["frame_drift_rate", "d_jupiter_mass", "d_saturn_mass", "d_uranus_mass", "d_neptune_mass", "jup_orb_elements", "sat_orb_elements",
    "times", "jup_orbit", "sat_orbit"] := rfl

theorem items_find (o : Options) : ∀ x ∈ o.list, (items o).find? x.1 = some (item x.1 x.2) := by
  intro x hx
  simp only [Options.list, List.mem_cons, List.not_mem_nil, or_false] at hx
  rcases hx with rfl | rfl | rfl | rfl | rfl | rfl | rfl <;> rfl

theorem given_number {params : Dict String Value} {name : String} {o : Opt} {x : ℝ} (h : StandsFor params name (.num 0) o (.num x)) {kw : Dict String Value}
    (hk : Dict.get? kw name = given params (some (item name o))) : arg number 0 kw name = .ok x := by
  rw [arg, hk]
  rcases o with ⟨_ | _⟩ | p | v
  · obtain rfl : x = 0 := Value.num.inj h
    simp [item, given, number]
  · have h : Dict.get? params name = some (.num x) := h
    simp [item, given, parValue, h, number]
  · rcases h with h | ⟨h1, h2⟩
    · simp [item, given, parValue, h, number]
    · simp [item, given, parValue, h1, h2, number]
  · obtain rfl : Value.num x = v := h
    simp [item, given, number]

theorem given_elements {params : Dict String Value} {name : String} {o : Opt} {x : Fin 6 → ℝ} (h : StandsFor params name (.vec 0) o (.vec x)) {kw : Dict String Value}
    (hk : Dict.get? kw name = given params (some (item name o))) : arg elements 0 kw name = .ok x := by
  rw [arg, hk]
  rcases o with ⟨_ | _⟩ | p | v
  · obtain rfl : x = 0 := Value.vec.inj h
    simp [item, given, elements]
  · have h : Dict.get? params name = some (.vec x) := h
    simp [item, given, parValue, h, elements]
  · rcases h with h | ⟨h1, h2⟩
    · simp [item, given, parValue, h, elements]
    · simp [item, given, parValue, h1, h2, elements]
  · obtain rfl : Value.vec x = v := h
    simp [item, given, elements]

variable {n : Nat}

theorem items_nodup (o : Options) : (items o).keys.Nodup := by
  rw [items_keys]
  decide

/-- The call of the waveform. -/
theorem signal_call (toa : ℝ) (planets : Fin 9 → Pos) (pos : Pos) (files : Orbits n) (o : Options) (params : Dict String Value) :
    ∃ D, (signal toa planets pos files o).call [] [] params = waveform toa planets pos files [] D ∧
      (∀ x ∈ o.list, Dict.get? D x.1 = given params (some (item x.1 x.2))) ∧ Dict.get? D "times" = some .files := by
  obtain ⟨D, h, hD⟩ := flat_call (waveform toa planets pos files) _ (some .psr) (items o) (items_flat o) (items_nodup o) (by rw [items_keys]; decide) params
  refine ⟨D, h, fun x hx => ?_, ?_⟩
  · rw [hD, items_find o x hx]
    simp only [Options.list, List.mem_cons, List.not_mem_nil, or_false] at hx
    rcases hx with rfl | rfl | rfl | rfl | rfl | rfl | rfl <;> simp
  · rw [hD _ (by decide)]
    rfl

/-- C159: the delay of the signal is that of the contributions that are switched on, with the values of their parameters; one that is switched off contributes nothing. -/
theorem C159_delay (toa : ℝ) (planets : Fin 9 → Pos) (pos : Pos) (files : Orbits (n + 1)) (o : Options) (params : Dict String Value) (par : Params) (h : Means params o par) :
    (signal toa planets pos files o).call [] [] params = .ok (.num (framePart (toa / 86400) (planets 2) pos par.frame_drift_rate true
      - par.d_jupiter_mass * dot (planets 4) pos - par.d_saturn_mass * dot (planets 5) pos
      - par.d_uranus_mass * dot (planets 6) pos - par.d_neptune_mass * dot (planets 7) pos
      - ∑ i, par.jup_orb_elements i * dot (unitOrbit (toa / 86400) mJ files.times files.jupiter i) pos
      - ∑ i, par.sat_orb_elements i * dot (unitOrbit (toa / 86400) mS files.times files.saturn i) pos)) := by
  obtain ⟨D, hc, hD, ht⟩ := signal_call toa planets pos files o params
  rw [hc]
  have e0 := given_number h.rate (hD ("frame_drift_rate", _) (by simp [Options.list]))
  have e1 := given_number h.jupiter (hD ("d_jupiter_mass", _) (by simp [Options.list]))
  have e2 := given_number h.saturn (hD ("d_saturn_mass", _) (by simp [Options.list]))
  have e3 := given_number h.uranus (hD ("d_uranus_mass", _) (by simp [Options.list]))
  have e4 := given_number h.neptune (hD ("d_neptune_mass", _) (by simp [Options.list]))
  have e5 := given_elements h.jup (hD ("jup_orb_elements", _) (by simp [Options.list]))
  have e6 := given_elements h.sat (hD ("sat_orb_elements", _) (by simp [Options.list]))
  simp only [waveform, e0, e1, e2, e3, e4, e5, e6, ht, bind, Except.bind, Option.map_some]
  rw [show (⟨par.frame_drift_rate, par.d_jupiter_mass, par.d_saturn_mass, par.d_uranus_mass, par.d_neptune_mass, par.jup_orb_elements, par.sat_orb_elements⟩ : Params) = par from rfl,
    C95 toa planets pos par files true]

/-- C159: the parameters of the signal are those that are switched on, under the names of the options, and those that are given. -/
theorem C159_params (toa : ℝ) (planets : Fin 9 → Pos) (pos : Pos) (files : Orbits n) (o : Options) (k : String) (p : ParRef Value) :
    Dict.get? (signal toa planets pos files o).params k = some p ↔ (k, Opt.par p) ∈ o.list ∨ (k, Opt.bool true) ∈ o.list ∧ p = ⟨k, none⟩ := by
  have e : (signal toa planets pos files o).params = (items o).params [] := by rw [signal, Fn.params]
  rw [e, params_flat _ (items_flat o) (items_nodup o)]
  have huniq : ∀ x ∈ o.list, ∀ q, (x.1, q) ∈ o.list → q = x.2 := by
    intro x hx q hq
    have h1 := items_find o x hx
    simp only [Options.list, List.mem_cons, List.not_mem_nil, or_false, Prod.mk.injEq] at hx hq
    rcases hx with rfl | rfl | rfl | rfl | rfl | rfl | rfl <;> simpa using hq
  by_cases hk : ∃ q, (k, q) ∈ o.list
  · obtain ⟨q, hq⟩ := hk
    rw [items_find o (k, q) hq]
    have hu := huniq (k, q) hq
    constructor
    · intro h
      rcases q with ⟨_ | _⟩ | r | v
      · cases h
      · exact .inr ⟨hq, (Option.some.inj h).symm⟩
      · obtain rfl := Option.some.inj h
        exact .inl hq
      · cases h
    · rintro (h | ⟨h, rfl⟩)
      · obtain rfl : Opt.par p = q := hu _ h
        rfl
      · obtain rfl : Opt.bool true = q := hu _ h
        rfl
  · have hno : ∀ q, (k, q) ∉ o.list := fun q hq => hk ⟨q, hq⟩
    constructor
    · intro h
      exfalso
      have : k ∈ (items o).keys := by
        by_contra hm
        cases hf : (items o).find? k with
        | none => rw [hf] at h; cases h
        | some it => exact hm (find?_mem _ _ _ hf)
      rw [items_keys] at this
      simp only [List.mem_cons, List.not_mem_nil, or_false] at this
      rcases this with rfl | rfl | rfl | rfl | rfl | rfl | rfl | rfl | rfl | rfl
      all_goals first
        | exact hno _ (by simp [Options.list]; rfl)
        | (simp [items, Items.find?, Dict.get?] at h)
    · rintro (h | ⟨h, -⟩) <;> exact absurd h (hno _)

/-- C159 is false for parameters without a value, which would be a `KeyError`: they count as zero.  Here no parameter has one, and there is no delay. -/
theorem C159_missing_false (toa : ℝ) (planets : Fin 9 → Pos) (pos : Pos) (files : Orbits (n + 1)) :
    (signal toa planets pos files {}).call [] [] [] = .ok (.num 0) := by
  obtain ⟨D, hc, hD, ht⟩ := signal_call toa planets pos files {} []
  rw [hc]
  have e0 : Dict.get? D "frame_drift_rate" = none := hD ("frame_drift_rate", .bool true) (by simp [Options.list])
  have e1 : Dict.get? D "d_jupiter_mass" = none := hD ("d_jupiter_mass", .bool true) (by simp [Options.list])
  have e2 : Dict.get? D "d_saturn_mass" = none := hD ("d_saturn_mass", .bool true) (by simp [Options.list])
  have e3 : Dict.get? D "d_uranus_mass" = none := hD ("d_uranus_mass", .bool true) (by simp [Options.list])
  have e4 : Dict.get? D "d_neptune_mass" = none := hD ("d_neptune_mass", .bool true) (by simp [Options.list])
  have e5 : Dict.get? D "jup_orb_elements" = none := hD ("jup_orb_elements", .bool true) (by simp [Options.list])
  have e6 : Dict.get? D "sat_orb_elements" = some (.bool false) := hD ("sat_orb_elements", .bool false) (by simp [Options.list])
  simp only [waveform, arg, e0, e1, e2, e3, e4, e5, e6, ht, bind, Except.bind, Option.map_some, elements, Bool.false_eq_true, if_false]
  rw [C95 toa planets pos _ files true]
  simp [framePart_zero]

/-- C159: `True` stands for one parameter, with a prior that is symmetric about zero. -/
theorem C159_defaults (o : Options) : byDefault.map Prod.fst = o.list.map Prod.fst ∧ ∀ x ∈ byDefault, match x.2 with
    | .uniform pmin pmax => pmin = -pmax ∧ 0 < pmax
    | .normal mu sigma => mu = 0 ∧ 0 < sigma := by
  refine ⟨rfl, fun x hx => ?_⟩
  simp only [byDefault, List.mem_cons, List.not_mem_nil, or_false] at hx
  rcases hx with rfl | rfl | rfl | rfl | rfl | rfl | rfl <;> norm_num

theorem uniform_variance {a : ℝ} (ha : 0 < a) : (Prior.uniform (-a) a).variance = a ^ 2 / 3 := by
  rw [Prior.variance]
  have e : ∀ x : ℝ, (x - (-a + a) / 2) ^ 2 / (a - -a) = (1 / (2 * a)) * x ^ 2 := fun x => by
    field_simp
    ring
  simp_rw [e]
  rw [intervalIntegral.integral_const_mul, integral_pow]
  field_simp
  ring

/-- C159: the masses have the same variance as in the Gaussian process of `createfourierdesignmatrix_physicalephem`, and the others a third of it. -/
theorem C159_variances : byDefault.map (fun x => x.2.variance) =
    [({} : Sigmas).frame_drift_rate.getD 0 ^ 2 / 3, ({} : Sigmas).d_jupiter_mass.getD 0 ^ 2, ({} : Sigmas).d_saturn_mass.getD 0 ^ 2, ({} : Sigmas).d_uranus_mass.getD 0 ^ 2,
      ({} : Sigmas).d_neptune_mass.getD 0 ^ 2, ({} : Sigmas).jup_orb_elements.getD 0 ^ 2 / 3, ({} : Sigmas).sat_orb_elements.getD 0 ^ 2 / 3] := by
  simp only [byDefault, List.map_cons, List.map_nil, Option.getD_some]
  rw [uniform_variance (by norm_num), uniform_variance (by norm_num), uniform_variance (by norm_num)]
  rfl

/-- C159 is false for the variances: that of the drift of the frame is not the one of the Gaussian process. -/
theorem C159_variances_false : ∃ x ∈ byDefault, x.1 = "frame_drift_rate" ∧ x.2.variance ≠ ({} : Sigmas).frame_drift_rate.getD 0 ^ 2 := by
  refine ⟨("frame_drift_rate", .uniform (-1e-9) 1e-9), by simp [byDefault], rfl, ?_⟩
  rw [uniform_variance (by norm_num)]
  norm_num

/-- C159 for a signal with the drift of the frame alone, given, at a rate of zero, and the mass of Jupiter: the delay is that of the mass. -/
example (toa : ℝ) (planets : Fin 9 → Pos) (pos : Pos) (files : Orbits (n + 1)) :
    (signal toa planets pos files ⟨.value (.num 0), .bool true, .bool false, .bool false, .bool false, .bool false, .bool false⟩).call [] [] [("d_jupiter_mass", .num 2)] =
      .ok (.num (-2 * dot (planets 4) pos)) := by
  have h : Means [("d_jupiter_mass", .num 2)] ⟨.value (.num 0), .bool true, .bool false, .bool false, .bool false, .bool false, .bool false⟩ ⟨0, 2, 0, 0, 0, 0, 0⟩ := by
    refine ⟨?_, ?_, ?_, ?_, ?_, ?_, ?_⟩ <;> simp [StandsFor, Dict.get?]
  rw [C159_delay toa planets pos files _ _ _ h]
  simp [framePart_zero]

end Verif.EphemSignal
