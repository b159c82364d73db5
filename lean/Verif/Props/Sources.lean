import Verif.Lemmas.Dict
import Verif.Model.Sources
import Verif.Props.Ephem
import Verif.Props.PulsarData
import Verif.Props.Wideband

/-!
# Pulsars from timing packages: C100, C101, C102, C103
-/

namespace Verif.Sources

open Verif Verif.Orf Verif.Ephem

/-! ## C100: flags -/

/-- What has been assigned so far: TOA `i` has the value `a i f` for the flag `f`. -/
def FlagInv (ntoas : Nat) (a : Nat → String → Option String) (d : Dict String (List String)) : Prop :=
  (∀ f, f ∈ d.keys ↔ ∃ i, i < ntoas ∧ a i f ≠ none) ∧
    ∀ f col, d.get? f = some col → col.length = ntoas ∧ ∀ i, i < ntoas → col[i]? = some ((a i f).getD "")

theorem mem_keys_iff {α : Type} (d : Dict String α) (f : String) : f ∈ d.keys ↔ ∃ v, d.get? f = some v := by
  rw [← not_iff_not]
  unfold Dict.keys
  rw [← Dict.get?_eq_none_iff, Option.eq_none_iff_forall_ne_some]
  simp

/-- One assignment. -/
def assign1 (a : Nat → String → Option String) (ii : Nat) (kv : String × String) : Nat → String → Option String :=
  fun i f => if i = ii ∧ f = kv.1 then some kv.2 else a i f

theorem putFlag_inv {ntoas ii : Nat} (hi : ii < ntoas) {a : Nat → String → Option String} {d : Dict String (List String)}
    (h : FlagInv ntoas a d) (kv : String × String) : ∃ d', putFlag ntoas ii d kv = .ok d' ∧ FlagInv ntoas (assign1 a ii kv) d' := by
  obtain ⟨h1, h2⟩ := h
  -- the column before the assignment
  have key : ∃ d1 col, (if kv.1 ∈ d.keys then d else d.set kv.1 (List.replicate ntoas "")) = d1 ∧ d1.get? kv.1 = some col ∧
      (∀ f, f ≠ kv.1 → d1.get? f = d.get? f) ∧ col.length = ntoas ∧ ∀ i, i < ntoas → col[i]? = some ((a i kv.1).getD "") := by
    by_cases hk : kv.1 ∈ d.keys
    · obtain ⟨col, hc⟩ := (mem_keys_iff d kv.1).1 hk
      exact ⟨d, col, by simp [hk], hc, fun _ _ => rfl, h2 _ _ hc⟩
    · refine ⟨d.set kv.1 (List.replicate ntoas ""), _, by simp [hk], Dict.get?_set_self _ _ _,
        fun f hf => Dict.get?_set_ne _ _ (Ne.symm hf), by simp, fun i hin => ?_⟩
      have hn : a i kv.1 = none := by
        by_contra hc
        exact hk ((h1 _).2 ⟨i, hin, hc⟩)
      simp [hn, hin]
  obtain ⟨d1, col, e1, hc, hne, hl, hv⟩ := key
  refine ⟨d1.set kv.1 (col.set ii kv.2), ?_, ?_, ?_⟩
  · simp only [putFlag, e1, Dict.get!, hc, bind, Except.bind]
    rw [if_pos (by omega)]
  · intro f
    rw [mem_keys_iff]
    by_cases hf : f = kv.1
    · subst hf
      refine ⟨fun _ => ⟨ii, hi, by simp [assign1]⟩, fun _ => ⟨_, Dict.get?_set_self _ _ _⟩⟩
    · rw [Dict.get?_set_ne _ _ (Ne.symm hf), hne f hf, ← mem_keys_iff, h1]
      simp [assign1, hf]
  · intro f c hget
    by_cases hf : f = kv.1
    · subst hf
      rw [Dict.get?_set_self] at hget
      obtain rfl := Option.some.inj hget
      refine ⟨by simp [hl], fun i hin => ?_⟩
      by_cases hii : i = ii
      · subst hii
        simp [assign1, hl, hin]
      · rw [List.getElem?_set_ne (Ne.symm hii), hv i hin]
        simp [assign1, hii]
    · rw [Dict.get?_set_ne _ _ (Ne.symm hf), hne f hf] at hget
      obtain ⟨q1, q2⟩ := h2 f c hget
      refine ⟨q1, fun i hin => ?_⟩
      rw [q2 i hin]
      simp [assign1, hf]

theorem putFlags_inv {ntoas ii : Nat} (hi : ii < ntoas) (l : List (String × String)) {a : Nat → String → Option String}
    {d : Dict String (List String)} (h : FlagInv ntoas a d) :
    ∃ d', l.foldlM (putFlag ntoas ii) d = .ok d' ∧ FlagInv ntoas (l.foldl (fun a kv => assign1 a ii kv) a) d' := by
  induction l generalizing a d with
  | nil => exact ⟨d, rfl, h⟩
  | cons kv l ih =>
    obtain ⟨d1, e1, i1⟩ := putFlag_inv hi h kv
    obtain ⟨d2, e2, i2⟩ := ih i1
    refine ⟨d2, ?_, i2⟩
    rw [List.foldlM_cons, e1]
    exact e2

theorem foldl_assign (l : Dict String String) (hn : l.keys.Nodup) (a : Nat → String → Option String) (ii i : Nat) (f : String) :
    (l.foldl (fun a kv => assign1 a ii kv) a) i f = if i = ii then (l.get? f).or (a i f) else a i f := by
  induction l generalizing a with
  | nil => simp
  | cons kv l ih =>
    obtain ⟨k, v⟩ := kv
    rw [show Dict.keys ((k, v) :: l) = k :: Dict.keys l from rfl, List.nodup_cons] at hn
    rw [List.foldl_cons, ih hn.2]
    by_cases hi : i = ii
    · subst hi
      simp only [if_true, assign1, Dict.get?_cons, true_and]
      by_cases hf : k = f
      · subst hf
        have : Dict.get? l k = none := (Dict.get?_eq_none_iff _ _).2 hn.1
        simp [this]
      · simp [hf, Ne.symm hf]
    · simp [hi, assign1]

theorem pintFlags_inv {ntoas : Nat} (l : List (Dict String String)) (hn : ∀ o ∈ l, o.keys.Nodup) (k : Nat) (hk : k + l.length ≤ ntoas)
    {a : Nat → String → Option String} (ha : ∀ i, k ≤ i → ∀ f, a i f = none) {d : Dict String (List String)} (h : FlagInv ntoas a d) :
    ∃ d', (l.zipIdx k).foldlM (fun d x => x.1.foldlM (putFlag ntoas x.2) d) d = .ok d' ∧
      FlagInv ntoas (fun i f => if i < k then a i f else (l[i - k]?).bind fun o => o.get? f) d' := by
  induction l generalizing k a d with
  | nil =>
    refine ⟨d, rfl, ?_⟩
    convert h using 3 with i f
    by_cases hi : i < k
    · simp [hi]
    · simp [hi, ha i (by omega) f]
  | cons o l ih =>
    simp only [List.length_cons] at hk
    obtain ⟨d1, e1, i1⟩ := putFlags_inv (ii := k) (by omega) o h
    obtain ⟨d2, e2, i2⟩ := ih (fun o ho => hn o (List.mem_cons_of_mem _ ho)) (k + 1) (by omega) (a := _) (by
      intro i hi f
      rw [foldl_assign o (hn o List.mem_cons_self), if_neg (by omega)]
      exact ha i (by omega) f) i1
    refine ⟨d2, ?_, ?_⟩
    · rw [List.zipIdx_cons, List.foldlM_cons, e1]
      exact e2
    · convert i2 using 3 with i f
      rw [foldl_assign o (hn o List.mem_cons_self)]
      by_cases h1 : i < k
      · rw [if_pos h1, if_pos (by omega), if_neg (by omega)]
      · rw [if_neg h1]
        by_cases h2 : i = k
        · subst h2
          simp [ha i le_rfl f]
        · rw [if_neg (by omega), show i - k = i - (k + 1) + 1 by omega]
          simp

/-- C100: the array of a flag has one entry for each TOA, which is the value of the flag of that very TOA, or an empty string
where the TOA has no such flag; the flags are those that some TOA has. -/
theorem C100_flags (obsflags : List (Dict String String)) (hn : ∀ o ∈ obsflags, o.keys.Nodup) :
    ∃ d, pintFlags obsflags.length obsflags = .ok d ∧ (∀ f, f ∈ d.keys ↔ ∃ o ∈ obsflags, f ∈ o.keys) ∧
      ∀ f col, d.get? f = some col → col = obsflags.map fun o => (o.get? f).getD "" := by
  have h0 : FlagInv obsflags.length (fun _ _ => none) [] := by
    refine ⟨fun f => ?_, fun f col h => ?_⟩
    · simp [Dict.keys]
    · simp at h
  obtain ⟨d, e, h1, h2⟩ := pintFlags_inv obsflags hn 0 (by simp) (fun _ _ _ => rfl) h0
  refine ⟨d, e, fun f => ?_, fun f col hc => ?_⟩
  · rw [h1]
    simp only [Nat.not_lt_zero, if_false, Nat.sub_zero]
    constructor
    · rintro ⟨i, hi, hv⟩
      rw [List.getElem?_eq_getElem hi] at hv
      refine ⟨obsflags[i], List.getElem_mem hi, (mem_keys_iff _ _).2 ?_⟩
      exact Option.ne_none_iff_exists'.1 hv
    · rintro ⟨o, ho, hf⟩
      obtain ⟨i, hi, rfl⟩ := List.getElem_of_mem ho
      obtain ⟨v, hv⟩ := (mem_keys_iff _ _).1 hf
      exact ⟨i, hi, by simp [List.getElem?_eq_getElem hi, hv]⟩
  · obtain ⟨hl, hv⟩ := h2 f col hc
    apply List.ext_getElem?
    intro i
    by_cases hi : i < obsflags.length
    · rw [hv i hi]
      simp [List.getElem?_eq_getElem hi]
    · rw [List.getElem?_eq_none (by omega), List.getElem?_eq_none (by simp; omega)]

/-- C100: after sorting, the entry of `psr.flags[f]` at each place belongs to the observation whose time is at that place of
`psr.toas`: one list of observation numbers serves both. -/
theorem C100_sorted {K V : Type} [Field K] [LinearOrder K] (p : PulsarData.Psr K V) (h : PulsarData.Aligned p) (hs : p.sort = true)
    (obsflags : List (Dict String String)) (hn : ∀ o ∈ obsflags, o.keys.Nodup) (hf : pintFlags obsflags.length obsflags = .ok p.flags) :
    ∃ q : List Nat, PulsarData.ReadsAs p.toas q (PulsarData.sortData p).getToas ∧
      ∀ f, (∃ o ∈ obsflags, f ∈ o.keys) →
        PulsarData.ReadsAs (obsflags.map fun o => (o.get? f).getD "") q ((PulsarData.sortData p).getFlag f) := by
  obtain ⟨d, e, h1, h2⟩ := C100_flags obsflags hn
  rw [hf] at e
  obtain rfl := Except.ok.inj e
  obtain ⟨q, -, ht, -, -, -, -, -, -, -, -, -, hfl⟩ := PulsarData.C13_one_permutation p h hs
  refine ⟨q, ht, fun f hfo => ?_⟩
  obtain ⟨col, hc⟩ := (mem_keys_iff _ _).1 ((h1 f).2 hfo)
  rw [← h2 f col hc]
  exact hfl f col hc

/-- Flags that only some TOAs have. -/
example : pintFlags 2 [[("fe", "A"), ("be", "X")], [("fe", "B"), ("pta", "N")]] =
    .ok [("fe", ["A", "B"]), ("be", ["X", ""]), ("pta", ["", "N"])] := by rfl

/-! ## C101: position -/

theorem getPos_unit (raj decj : ℝ) : dot (getPos raj decj) (getPos raj decj) = 1 := by
  have h1 := Real.sin_sq_add_cos_sq raj
  have h2 := Real.sin_sq_add_cos_sq decj
  simp only [dot, getPos, Fin.sum_univ_three, Matrix.cons_val_zero, Matrix.cons_val_one, Matrix.cons_val]
  linear_combination Real.cos decj ^ 2 * h1 + h2

/-- C101: the position is a unit vector. -/
theorem C101_unit (raj decj : ℝ) : dot (getPos raj decj) (getPos raj decj) = 1 := getPos_unit raj decj

/-- C101: the positions are on the sphere of right ascension and declination: the angle between two of them is the one of
spherical trigonometry, and the axes are where they should be. -/
theorem C101_sphere (a d a' d' : ℝ) :
    dot (getPos a d) (getPos a' d') = Real.sin d * Real.sin d' + Real.cos d * Real.cos d' * Real.cos (a - a') ∧
    getPos 0 0 = ![1, 0, 0] ∧ getPos (Real.pi / 2) 0 = ![0, 1, 0] ∧ getPos a (Real.pi / 2) = ![0, 0, 1] := by
  refine ⟨?_, by simp [getPos], by simp [getPos], by simp [getPos]⟩
  simp only [dot, getPos, Fin.sum_univ_three, Matrix.cons_val_zero, Matrix.cons_val_one, Matrix.cons_val]
  rw [Real.cos_sub]
  ring

/-- C101: `pos_t` keeps all lengths and angles of the directions that libstempo gives. -/
theorem C101_geometry (t : T2) : (t2PosT t).length = t.psrPos.length ∧
    ∀ (i j : Nat) (v w v' w' : Pos), t.psrPos[i]? = some v → t.psrPos[j]? = some w → (t2PosT t)[i]? = some v' → (t2PosT t)[j]? = some w' →
      dot v' w' = dot v w := by
  unfold t2PosT
  split_ifs with h
  · refine ⟨by simp, fun i j v w v' w' hv hw hv' hw' => ?_⟩
    simp only [List.getElem?_map, hv, hw, Option.map_some, Option.some.injEq] at hv' hw'
    rw [← hv', ← hw']
    exact (C73_ecliptic v w).2.2.1
  · refine ⟨rfl, fun i j v w v' w' hv hw hv' hw' => ?_⟩
    rw [hv] at hv'
    rw [hw] at hw'
    rw [← Option.some.inj hv', ← Option.some.inj hw']

/-- C101: a pulsar with one kind of coordinates, whose direction libstempo gives in these coordinates (without proper motion),
has `pos_t` equal to `pos`.  For ecliptic coordinates this needs a name without the letter B and pyephem's conversion to
be the rotation by the obliquity.  Missing: names with B (`C101_epoch_false`) and pulsars for which both kinds are set
(`C101_both_false`). -/
theorem C101_partial (eph : PyEphem) (t : T2) (x y : ℝ) (hpos : ∀ v ∈ t.psrPos, v = getPos x y)
    (h : ("RAJ" ∈ t.fitted ++ t.set ∧ "ELAT" ∉ t.fitted ++ t.set ∧ t.val.get? "RAJ" = some x ∧ t.val.get? "DECJ" = some y) ∨
      ("RAJ" ∉ t.fitted ++ t.set ∧ "ELAT" ∈ t.fitted ++ t.set ∧ t.val.get? "ELONG" = some x ∧ t.val.get? "ELAT" = some y ∧
        'B' ∉ t.name.toList ∧ ∃ r d, eph "2000" x y = some (r, d) ∧ getPos r d = ecl2eq (getPos x y))) :
    ∃ raj decj, t2Radec eph t = .ok (raj, decj) ∧ ∀ v ∈ t2PosT t, v = getPos raj decj := by
  rcases h with ⟨h1, h2, h3, h4⟩ | ⟨h1, h2, h3, h4, h5, r, d, h6, h7⟩
  · refine ⟨x, y, ?_, ?_⟩
    · simp only [t2Radec, if_pos h1, T2.get, h3, h4, Option.elim_some, bind, Except.bind]
    · simp only [t2PosT, if_neg h2]
      exact hpos
  · refine ⟨r, d, ?_, ?_⟩
    · simp only [t2Radec, if_neg h1, T2.get, h3, h4, Option.elim_some, bind, Except.bind, radecFromEcliptic, if_neg h5, h6, Option.getD_some]
    · simp only [t2PosT, if_pos h2, List.mem_map]
      rintro v ⟨w, hw, rfl⟩
      rw [hpos w hw, h7]

theorem cos_ecl_lt : Real.cos eEcl < 1 := by
  have hp := Real.pi_pos
  have h0 : 0 < eEcl := by unfold eEcl; positivity
  have h1 : eEcl < Real.pi := by unfold eEcl; nlinarith
  calc Real.cos eEcl < Real.cos 0 := Real.cos_lt_cos_of_nonneg_of_le_pi le_rfl h1.le h0
    _ = 1 := Real.cos_zero

/-- Only the direction of the equinox is left in place by the rotation. -/
theorem ecl2eq_fixed {v : Pos} (h : ecl2eq v = v) : v 1 = 0 ∧ v 2 = 0 := by
  have h1 := congrFun h 1
  have h2 := congrFun h 2
  simp only [ecl2eq, mEcl, Fin.sum_univ_three, Matrix.of_apply, Matrix.cons_val_zero, Matrix.cons_val_one, Matrix.cons_val, zero_mul, zero_add] at h1 h2
  have hc := cos_ecl_lt
  have key : (1 - Real.cos eEcl) * (v 1 ^ 2 + v 2 ^ 2) = 0 := by linear_combination (-(v 1)) * h1 - v 2 * h2
  have h3 : v 1 ^ 2 + v 2 ^ 2 = 0 := by
    rcases mul_eq_zero.1 key with h | h
    · linarith
    · linarith
  constructor
  · nlinarith [sq_nonneg (v 1), sq_nonneg (v 2)]
  · nlinarith [sq_nonneg (v 1), sq_nonneg (v 2)]

/-- C101 fails when both kinds of coordinates are set: the position is that of the equatorial coordinates, and `pos_t` is
turned by the obliquity although libstempo gave it in equatorial coordinates; they agree for no pulsar outside the two
directions of the equinox. -/
theorem C101_both_false (eph : PyEphem) (t : T2) (x y : ℝ) (hpos : ∀ v ∈ t.psrPos, v = getPos x y) (h1 : "RAJ" ∈ t.fitted ++ t.set)
    (h2 : "ELAT" ∈ t.fitted ++ t.set) (h3 : t.val.get? "RAJ" = some x) (h4 : t.val.get? "DECJ" = some y) (hy : Real.sin y ≠ 0) :
    t2Radec eph t = .ok (x, y) ∧ ∀ v ∈ t2PosT t, v ≠ getPos x y := by
  constructor
  · simp only [t2Radec, if_pos h1, T2.get, h3, h4, Option.elim_some, bind, Except.bind]
  · simp only [t2PosT, if_pos h2, List.mem_map]
    rintro v ⟨w, hw, rfl⟩ he
    rw [hpos w hw] at he
    exact hy (by simpa [getPos] using (ecl2eq_fixed he).2)

/-- C101 fails for ecliptic coordinates of pulsars with a letter B anywhere in their name: the position is asked for in
coordinates of the equinox of 1950, `pos_t` is in those of 2000.  They differ whenever the two conversions of pyephem do. -/
theorem C101_epoch_false (eph : PyEphem) (t : T2) (x y r d r' d' : ℝ) (hpos : ∀ v ∈ t.psrPos, v = getPos x y)
    (h1 : "RAJ" ∉ t.fitted ++ t.set) (h2 : "ELAT" ∈ t.fitted ++ t.set) (h3 : t.val.get? "ELONG" = some x) (h4 : t.val.get? "ELAT" = some y)
    (hB : 'B' ∈ t.name.toList) (he : eph "1950" x y = some (r, d)) (he' : eph "2000" x y = some (r', d'))
    (hrot : getPos r' d' = ecl2eq (getPos x y)) (hne : getPos r d ≠ getPos r' d') :
    t2Radec eph t = .ok (r, d) ∧ ∀ v ∈ t2PosT t, v ≠ getPos r d := by
  constructor
  · simp only [t2Radec, if_neg h1, T2.get, h3, h4, Option.elim_some, bind, Except.bind, radecFromEcliptic, if_pos hB, he, Option.getD_some]
  · simp only [t2PosT, if_pos h2, List.mem_map]
    rintro v ⟨w, hw, rfl⟩ hv
    rw [hpos w hw, ← hrot] at hv
    exact hne hv.symm

/-- The letter B may be the one of a companion in the name of a pulsar that is named by its position of 2000. -/
example : 'B' ∈ "J1748-2446B".toList := by decide

/-- C101: a pair of coordinates that pyephem refuses gives the position zero. -/
theorem C101_refused (eph : PyEphem) (name : String) (x y : ℝ) (h : ∀ epoch, eph epoch x y = none) :
    radecFromEcliptic eph name x y = (0, 0) := by
  simp [radecFromEcliptic, h]

/-- C101 for PINT: equatorial coordinates are taken if there are both of them, else ecliptic ones; a model with neither raises. -/
theorem C101_pint (eph : PyEphem) (m : PintModel) :
    (∀ a b, m.par.get? "RAJ" = some a → m.par.get? "DECJ" = some b → pintRadec eph m = .ok (a.value, b.value)) ∧
    (m.par.get? "RAJ" = none ∨ m.par.get? "DECJ" = none →
      (∀ a b, m.par.get? "ELONG" = some a → m.par.get? "ELAT" = some b →
        pintRadec eph m = .ok (radecFromEcliptic eph m.psr a.value b.value)) ∧
      (m.par.get? "ELONG" = none ∨ m.par.get? "ELAT" = none → pintRadec eph m = .error .attributeError)) := by
  refine ⟨fun a b ha hb => ?_, fun h => ⟨fun a b ha hb => ?_, fun h' => ?_⟩⟩
  · simp [pintRadec, PintModel.get, ha, hb, bind, Except.bind]
  · have : ¬ ((m.par.get? "RAJ").isSome ∧ (m.par.get? "DECJ").isSome) := by rcases h with h | h <;> simp [h]
    simp only [pintRadec, if_neg this, PintModel.get, ha, hb, Option.elim_some, bind, Except.bind]
  · have : ¬ ((m.par.get? "RAJ").isSome ∧ (m.par.get? "DECJ").isSome) := by rcases h with h | h <;> simp [h]
    simp only [pintRadec, if_neg this, PintModel.get, bind, Except.bind]
    rcases h' with h' | h'
    · simp [h']
    · cases m.par.get? "ELONG" <;> simp [h']

/-! ## C102: dispersion bins -/

theorem get?_update_some {α : Type} {d : Dict String α} {e : List (String × α)} {k : String} {v : α}
    (h : Dict.get? (Dict.update d e) k = some v) : (k, v) ∈ e ∨ Dict.get? d k = some v := by
  induction e generalizing d with
  | nil => exact .inr h
  | cons x e ih =>
    rcases ih (d := Dict.set d x.1 x.2) h with h | h
    · exact .inl (List.mem_cons_of_mem _ h)
    · rw [Dict.get?_set] at h
      split_ifs at h with hk
      · left
        obtain rfl := Option.some.inj h
        rw [← hk]
        exact List.mem_cons_self
      · exact .inr h

theorem keys_update {α : Type} (d : Dict String α) (e : List (String × α)) (k : String) :
    k ∈ Dict.keys (Dict.update d e) ↔ k ∈ e.map Prod.fst ∨ k ∈ Dict.keys d := by
  induction e generalizing d with
  | nil => simp [Dict.update]
  | cons x e ih =>
    rw [show Dict.update d (x :: e) = Dict.update (Dict.set d x.1 x.2) e from rfl, ih, mem_keys_iff (Dict.set d x.1 x.2), mem_keys_iff d]
    simp only [Dict.get?_set, List.map_cons, List.mem_cons]
    by_cases hk : x.1 = k
    · simp [hk]
    · simp [hk, Ne.symm hk]

/-- A bin in a dictionary of bins, with the value and the range that the parameters of the timing model with the names of the
bin have. -/
def Faithful (val : String → Option ℝ) (err : String → Option ℝ) (p : String) (x : Dmx) : Prop :=
  val p = some x.DMX ∧ err p = x.DMXerr ∧ val (binName "R1" p) = some x.DMXR1 ∧ val (binName "R2" p) = some x.DMXR2

/-- The parameters of a bin are named as in par files. -/
theorem C102_names (s : String) : isBin ("DMX_" ++ s) = true ∧ binName "R1" ("DMX_" ++ s) = "DMXR1_" ++ s ∧
    binName "R2" ("DMX_" ++ s) = "DMXR2_" ++ s ∧ isBin ("DMXR1_" ++ "0001") = false := by
  refine ⟨?_, ?_, ?_, by decide⟩
  · simp only [isBin, decide_eq_true_eq, String.toList_append]
    exact (List.prefix_append _ _).isInfix
  · apply String.toList_injective
    simp [binName, String.toList_append]
  · apply String.toList_injective
    simp [binName, String.toList_append]

/-- The items of a comprehension over bins. -/
theorem bins_spec {pars : List String} {f : String → Except PyErr (String × Dmx)} {items : List (String × Dmx)}
    (h : (pars.filter fun p => isBin p).mapM f = .ok items) (hf : ∀ p y, f p = .ok y → y.1 = p) :
    (∀ p, p ∈ Dict.keys (Dict.ofList items) ↔ p ∈ pars ∧ isBin p = true) ∧
      ∀ p x, Dict.get? (Dict.ofList items) p = some x → f p = .ok (p, x) := by
  have h2 := Wideband.mapM_forall f _ _ h
  have hk : items.map Prod.fst = pars.filter fun p => isBin p := by
    clear h
    generalize (pars.filter fun p => isBin p) = l at h2
    induction h2 with
    | nil => rfl
    | cons hab _ ih => rw [List.map_cons, ih, hf _ _ hab]
  constructor
  · intro p
    rw [Dict.ofList, keys_update, hk]
    simp [Dict.keys]
  · intro p x hx
    rcases get?_update_some hx with hm | hm
    · generalize (pars.filter fun p => isBin p) = l at h2
      clear h hk hx
      induction h2 with
      | nil => simp at hm
      | cons hab _ ih =>
        rcases List.mem_cons.1 hm with rfl | hm
        · have := hf _ _ hab
          simp only at this
          subst this; exact hab
        · exact ih hm
    · simp at hm

/-- C102 for libstempo: `dmx` holds the bins among the parameters that are set, each with its own value, uncertainty and range.
Missing: `fit`, which is true for all of them (`C102_fit_false`). -/
theorem C102_tempo2_partial (t : T2) {d : Dict String Dmx} (h : t2Dmx t = .ok d) :
    (∀ p, p ∈ d.keys ↔ p ∈ t.set ∧ isBin p = true) ∧ ∀ p x, d.get? p = some x →
      Faithful (fun p => t.val.get? p) (fun p => t.err.get? p) p x ∧ x.fit = true := by
  unfold t2Dmx at h
  simp only [bind, Except.bind] at h
  split at h
  · cases h
  · rename_i items hi
    obtain rfl := Except.ok.inj h
    obtain ⟨h1, h2⟩ := bins_spec hi (by
      intro p y hy
      simp only [T2.get, T2.getErr] at hy
      cases e1 : t.val.get? p <;> cases e2 : t.err.get? p <;> cases e3 : t.val.get? (binName "R1" p) <;>
        cases e4 : t.val.get? (binName "R2" p) <;> simp [e1, e2, e3, e4, pure, Except.pure] at hy
      rw [← hy])
    refine ⟨h1, fun p x hx => ?_⟩
    have hp := ((h1 p).1 ((mem_keys_iff _ _).2 ⟨x, hx⟩)).1
    have hy := h2 p x hx
    simp only [T2.get, T2.getErr] at hy
    cases e1 : t.val.get? p <;> cases e2 : t.err.get? p <;> cases e3 : t.val.get? (binName "R1" p) <;>
      cases e4 : t.val.get? (binName "R2" p) <;> simp [e1, e2, e3, e4, pure, Except.pure] at hy
    rw [← hy]
    exact ⟨⟨e1, e2, e3, e4⟩, by simpa using hp⟩

/-- C102 fails for libstempo: a bin that is set but not fitted is reported as fitted. -/
theorem C102_fit_false (t : T2) {d : Dict String Dmx} (h : t2Dmx t = .ok d) (p : String) (hs : p ∈ t.set) (hb : isBin p = true)
    (hfit : p ∉ t2Fitpars t) : ∃ x, d.get? p = some x ∧ x.fit = true ∧ p ∈ t2Setpars t := by
  obtain ⟨h1, h2⟩ := C102_tempo2_partial t h
  obtain ⟨x, hx⟩ := (mem_keys_iff _ _).1 ((h1 p).2 ⟨hs, hb⟩)
  exact ⟨x, hx, (h2 p x hx).2, by simp [t2Setpars, hs, hfit]⟩

/-- C102 for PINT: `dmx` holds the bins that are not frozen, with their values, uncertainties and ranges, all as fitted.
Missing: bins that are frozen (`C102_frozen_false`). -/
theorem C102_pint_partial (m : PintModel) {d : Dict String Dmx} (h : pintDmx m = .ok d) :
    (∀ p, p ∈ d.keys ↔ p ∈ m.params ∧ isBin p = true ∧ ∃ x, m.par.get? p = some x ∧ x.frozen = false) ∧
      ∀ p x, d.get? p = some x →
        Faithful (fun p => (m.par.get? p).map PintPar.value) (fun p => (m.par.get? p).bind PintPar.uncertainty) p x ∧ x.fit = true := by
  unfold pintDmx at h
  simp only [bind, Except.bind] at h
  split at h
  · cases h
  rename_i all hall
  split at h
  · cases h
  rename_i items hi
  obtain rfl := Except.ok.inj h
  have ha := Wideband.mapM_forall _ _ _ hall
  have hpars : ∀ p, p ∈ (all.filter fun x => !x.2.frozen).map Prod.fst ↔ p ∈ m.params ∧ ∃ x, m.par.get? p = some x ∧ x.frozen = false := by
    intro p
    clear hi hall
    generalize m.params = l at ha
    induction ha with
    | nil => simp
    | @cons q y l r hab _ ih =>
      have hq : m.par.get? q = some y.2 ∧ y.1 = q := by
        simp only [PintModel.get] at hab
        cases e : m.par.get? q with
        | none => simp [e] at hab
        | some z => simp [e, pure, Except.pure] at hab; rw [← hab]; exact ⟨rfl, rfl⟩
      have ih' := ih
      simp only [List.mem_map, List.mem_filter, List.mem_cons] at ih' ⊢
      constructor
      · rintro ⟨z, ⟨rfl | hz, hf⟩, rfl⟩
        · exact ⟨.inl hq.2, z.2, by rw [hq.2]; exact hq.1, by simpa using hf⟩
        · obtain ⟨h1, h2⟩ := ih'.1 ⟨z, ⟨hz, hf⟩, rfl⟩
          exact ⟨.inr h1, h2⟩
      · rintro ⟨rfl | hl, x, hx, hxf⟩
        · refine ⟨y, ⟨.inl rfl, ?_⟩, hq.2⟩
          rw [hq.1] at hx
          rw [Option.some.inj hx, hxf]; rfl
        · obtain ⟨z, ⟨hz, hf⟩, rfl⟩ := ih'.2 ⟨hl, x, hx, hxf⟩
          exact ⟨z, ⟨.inr hz, hf⟩, rfl⟩
  obtain ⟨h1, h2⟩ := bins_spec hi (by
    intro p y hy
    simp only [PintModel.get] at hy
    cases e1 : m.par.get? p <;> cases e3 : m.par.get? (binName "R1" p) <;>
      cases e4 : m.par.get? (binName "R2" p) <;> simp [e1, e3, e4, pure, Except.pure] at hy
    rw [← hy])
  refine ⟨fun p => ?_, fun p x hx => ?_⟩
  · rw [h1, hpars]; tauto
  · have hp := ((h1 p).1 ((mem_keys_iff _ _).2 ⟨x, hx⟩)).1
    have hy := h2 p x hx
    simp only [PintModel.get] at hy
    cases e1 : m.par.get? p <;> cases e3 : m.par.get? (binName "R1" p) <;>
      cases e4 : m.par.get? (binName "R2" p) <;> simp [e1, e3, e4, pure, Except.pure] at hy
    rw [← hy]
    refine ⟨⟨by simp [e1], by simp [e1], by simp [e3], by simp [e4]⟩, ?_⟩
    simpa using hp

/-- C102 fails for PINT: a frozen bin is not listed, not even as one that is not fitted. -/
theorem C102_frozen_false (m : PintModel) {d : Dict String Dmx} (h : pintDmx m = .ok d) (p : String) (x : PintPar)
    (hx : m.par.get? p = some x) (hf : x.frozen = true) : p ∉ d.keys := by
  rw [(C102_pint_partial m h).1 p]
  rintro ⟨-, -, y, hy, hyf⟩
  rw [hx] at hy
  rw [← Option.some.inj hy, hf] at hyf
  exact absurd hyf (by decide)

/-! ## C103: planets -/

/-- The planets whose positions `physical_ephem_delay` reads. -/
def Needed (k : Fin 9) : Prop := k = 2 ∨ k = 4 ∨ k = 5 ∨ k = 6 ∨ k = 7

theorem putPlanet_get {k : Fin 9} {rows : List Row} {v : List Pos} {i : Nat} {r : Row} {p : Pos} (hr : rows[i]? = some r) (hv : v[i]? = some p) :
    (putPlanet k rows v)[i]? = some fun (a : Fin 9) (b : Fin 6) => if a = k ∧ (b : Nat) < 3 then some (p (Fin.ofNat 3 b)) else r a b := by
  simp [putPlanet, List.getElem?_zipWith, hr, hv]

/-- C103 for PINT: with the columns of all five planets the rows have, for these planets, the vector from the barycentre to
the planet in light seconds, and nothing (nan) for the others and for all velocities. -/
theorem C103_pint (t : PintTable) (c : Fin 9 → List Pos) (hc : ∀ k, Needed k → (c k).length = t.obs.length)
    (h2 : t.cols.get? "obs_earth_pos" = some (c 2)) (h4 : t.cols.get? "obs_jupiter_pos" = some (c 4)) (h5 : t.cols.get? "obs_saturn_pos" = some (c 5))
    (h6 : t.cols.get? "obs_uranus_pos" = some (c 6)) (h7 : t.cols.get? "obs_neptune_pos" = some (c 7)) :
    ∃ rows, pintPlanets true t = .ok (some rows) ∧ rows.length = t.obs.length ∧
      ∀ (i : Nat) (o : Pos) (r : Row), t.obs[i]? = some o → rows[i]? = some r →
        (∀ k, Needed k → ∀ p, (c k)[i]? = some p → ∀ j : Fin 3, r k (Fin.castLE (by omega) j) = some ((p j + o j) / 299792458)) ∧
        (∀ k, ¬ Needed k → ∀ j, r k j = none) ∧ ∀ (k : Fin 9) (j : Fin 6), 3 ≤ (j : Nat) → r k j = none := by
  have e : ∀ (k : Fin 9) (name : String), t.cols.get? name = some (c k) →
      ssbLsec t name = .ok (List.zipWith (fun a b j => (a j + b j) / 299792458) (c k) t.obs) := by
    intro k name h
    simp only [ssbLsec, h, Option.elim_some]
  have hl : ∀ k, Needed k → (List.zipWith (fun (a b : Pos) j => (a j + b j) / 299792458) (c k) t.obs).length = t.obs.length := by
    intro k hk; simp [hc k hk]
  have n2 : Needed 2 := by simp [Needed]
  have n4 : Needed 4 := by simp [Needed]
  have n5 : Needed 5 := by simp [Needed]
  have n6 : Needed 6 := by simp [Needed]
  have n7 : Needed 7 := by simp [Needed]
  refine ⟨_, by simp only [pintPlanets, if_true, e _ _ h2, e _ _ h4, e _ _ h5, e _ _ h6, e _ _ h7, bind, Except.bind]; rfl, ?_, ?_⟩
  · simp [putPlanet, hc _ n2, hc _ n4, hc _ n5, hc _ n6, hc _ n7]
  · intro i o r ho hr
    have hi := (List.getElem?_eq_some_iff.1 ho).1
    have get : ∀ k, Needed k → ∃ p, (c k)[i]? = some p ∧
        (List.zipWith (fun (a b : Pos) j => (a j + b j) / 299792458) (c k) t.obs)[i]? = some fun j => (p j + o j) / 299792458 := by
      intro k hk
      refine ⟨(c k)[i]'(by rw [hc k hk]; exact hi), List.getElem?_eq_getElem _, ?_⟩
      rw [List.getElem?_zipWith, List.getElem?_eq_getElem (by rw [hc k hk]; exact hi), ho]
    obtain ⟨p2, a2, b2⟩ := get 2 n2
    obtain ⟨p4, a4, b4⟩ := get 4 n4
    obtain ⟨p5, a5, b5⟩ := get 5 n5
    obtain ⟨p6, a6, b6⟩ := get 6 n6
    obtain ⟨p7, a7, b7⟩ := get 7 n7
    have r0 : (t.obs.map fun _ _ _ => none : List Row)[i]? = some fun _ _ => none := by
      rw [List.getElem?_map, ho]; rfl
    have back : ∀ j : Fin 3, (Fin.ofNat 3 (j : Nat)) = j := fun j => Fin.ext (Nat.mod_eq_of_lt j.isLt)
    rw [putPlanet_get (putPlanet_get (putPlanet_get (putPlanet_get (putPlanet_get r0 b2) b4) b5) b6) b7] at hr
    obtain rfl := Option.some.inj hr
    refine ⟨?_, ?_, ?_⟩
    · rintro k (rfl | rfl | rfl | rfl | rfl) p hp j
      · rw [a2] at hp; obtain rfl := Option.some.inj hp; simp [back j]
      · rw [a4] at hp; obtain rfl := Option.some.inj hp; simp [back j]
      · rw [a5] at hp; obtain rfl := Option.some.inj hp; simp [back j]
      · rw [a6] at hp; obtain rfl := Option.some.inj hp; simp [back j]
      · rw [a7] at hp; obtain rfl := Option.some.inj hp; simp [back j]
    · intro k hk j
      simp only [Needed, not_or] at hk
      simp [hk]
    · intro k j hj
      simp [Nat.not_lt.2 hj]

/-- C103 for PINT: a missing column raises, whichever it is; without `planets` nothing is read. -/
theorem C103_missing (t : PintTable) (name : String) (hn : name ∈ ["obs_earth_pos", "obs_jupiter_pos", "obs_saturn_pos", "obs_uranus_pos", "obs_neptune_pos"])
    (h : t.cols.get? name = none) : pintPlanets true t = .error .valueError ∧ pintPlanets false t = .ok none := by
  refine ⟨?_, rfl⟩
  have e : ssbLsec t name = .error .valueError := by simp [ssbLsec, h]
  have or : ∀ n, ssbLsec t n = .error .valueError ∨ ∃ v, ssbLsec t n = .ok v := by
    intro n
    unfold ssbLsec
    cases t.cols.get? n <;> simp
  simp only [List.mem_cons, List.not_mem_nil, or_false] at hn
  unfold pintPlanets
  simp only [if_true, bind, Except.bind]
  rcases or "obs_earth_pos" with h2 | ⟨v2, h2⟩ <;> rcases or "obs_jupiter_pos" with h4 | ⟨v4, h4⟩ <;>
    rcases or "obs_saturn_pos" with h5 | ⟨v5, h5⟩ <;> rcases or "obs_uranus_pos" with h6 | ⟨v6, h6⟩ <;>
    rcases or "obs_neptune_pos" with h7 | ⟨v7, h7⟩ <;> simp only [h2, h4, h5, h6, h7]
  rcases hn with rfl | rfl | rfl | rfl | rfl <;> simp_all

/-- C103 for libstempo: planets and pulsar direction are in the same frame: their scalar products, of which the delays are
made, are those of the vectors that libstempo gave. -/
theorem C103_tempo2 (t : T2) (i : Nat) (row row' : Fin 9 → Pos × Pos) (v v' : Pos) (hr : t.planets[i]? = some row) (hv : t.psrPos[i]? = some v)
    (hv' : (t2PosT t)[i]? = some v') : ∃ rows, t2Planets true t = some rows ∧ rows.length = t.planets.length ∧
      (rows[i]? = some row' → ∀ k, dot (row' k).1 v' = dot (row k).1 v ∧ dot (row' k).2 v' = dot (row k).2 v) := by
  unfold t2Planets
  unfold t2PosT at hv'
  by_cases h : "ELAT" ∈ t.fitted ++ t.set
  · rw [if_pos h] at hv'
    refine ⟨_, by rw [if_pos rfl, if_pos h], by simp, fun hr' k => ?_⟩
    simp only [List.getElem?_map, hr, hv, Option.map_some, Option.some.injEq] at hr' hv'
    rw [← hr', ← hv']
    exact ⟨(C73_ecliptic _ _).2.2.1, (C73_ecliptic _ _).2.2.1⟩
  · rw [if_neg h] at hv'
    refine ⟨_, by rw [if_pos rfl, if_neg h], rfl, fun hr' k => ?_⟩
    rw [hr] at hr'
    rw [hv] at hv'
    rw [← Option.some.inj hr', ← Option.some.inj hv']
    exact ⟨rfl, rfl⟩

/-! ## Cases that meet the hypotheses -/

/-- A pulsar with a fitted and a fixed bin, with ecliptic and equatorial coordinates. -/
noncomputable def t2Case : T2 where
  name := "J1748-2446B"
  fitted := ["RAJ", "DECJ", "DMX_0001"]
  set := ["RAJ", "DECJ", "ELONG", "ELAT", "DMX_0001", "DMX_0002"]
  val := [("RAJ", 1), ("DECJ", 1), ("ELONG", 1), ("ELAT", 1), ("DMX_0001", 0.1), ("DMXR1_0001", 53000), ("DMXR2_0001", 53007),
    ("DMX_0002", 0.2), ("DMXR1_0002", 53007), ("DMXR2_0002", 53014)]
  err := [("DMX_0001", 0.01), ("DMX_0002", 0.02)]
  psrPos := [getPos 1 1, getPos 1 1]
  planets := [fun _ => (![1, 2, 3], ![4, 5, 6]), fun _ => (![1, 2, 4], ![4, 5, 6])]

/-- Both kinds of coordinates: `C101_both_false` applies. -/
example : t2Radec (fun _ _ _ => none) t2Case = .ok (1, 1) ∧ ∀ v ∈ t2PosT t2Case, v ≠ getPos 1 1 :=
  C101_both_false _ t2Case 1 1 (by simp [t2Case]) (by decide) (by decide) (by rfl) (by rfl)
    (Real.sin_pos_of_pos_of_le_one one_pos le_rfl).ne'

/-- A fixed bin: `C102_fit_false` applies. -/
example : ∃ d, t2Dmx t2Case = .ok d ∧ ∃ x, d.get? "DMX_0002" = some x ∧ x.fit = true ∧ "DMX_0002" ∈ t2Setpars t2Case := by
  have h : t2Dmx t2Case = .ok [("DMX_0001", ⟨0.1, some 0.01, 53000, 53007, true⟩), ("DMX_0002", ⟨0.2, some 0.02, 53007, 53014, true⟩)] := rfl
  exact ⟨_, h, C102_fit_false t2Case h _ (by decide) (by decide) (by decide)⟩

/-- Ecliptic coordinates only, and a letter B: `C101_epoch_false` applies to a pyephem that turns the coordinates for one
equinox and not for the other. -/
example : ∃ (eph : PyEphem) (t : T2) (r d : ℝ), t2Radec eph t = .ok (r, d) ∧ ∀ v ∈ t2PosT t, v ≠ getPos r d := by
  let t : T2 := { t2Case with set := ["ELONG", "ELAT"], fitted := [], psrPos := [getPos (Real.pi / 2) (Real.pi / 2)] }
  have hw : ecl2eq (getPos (Real.pi / 2) (Real.pi / 2)) = getPos (3 * Real.pi / 2) (Real.pi / 2 - eEcl) := by
    have e1 : getPos (Real.pi / 2) (Real.pi / 2) = ![0, 0, 1] := by simp [getPos]
    have e2 : Real.cos (3 * Real.pi / 2) = 0 := by
      rw [show 3 * Real.pi / 2 = Real.pi / 2 + Real.pi by ring, Real.cos_add_pi, Real.cos_pi_div_two, neg_zero]
    have e3 : Real.sin (3 * Real.pi / 2) = -1 := by
      rw [show 3 * Real.pi / 2 = Real.pi / 2 + Real.pi by ring, Real.sin_add_pi, Real.sin_pi_div_two]
    rw [e1]
    funext j
    fin_cases j <;> simp [getPos, ecl2eq_eq, mEcl, e2, e3, Real.cos_pi_div_two_sub, Real.sin_pi_div_two_sub]
  have hne : getPos (Real.pi / 2) (Real.pi / 2) ≠ getPos (3 * Real.pi / 2) (Real.pi / 2 - eEcl) := by
    intro h
    have := congrFun h 2
    simp [getPos, Real.sin_pi_div_two_sub] at this
    exact absurd this.symm cos_ecl_lt.ne
  refine ⟨fun e _ _ => if e = "1950" then some (Real.pi / 2, Real.pi / 2) else some (3 * Real.pi / 2, Real.pi / 2 - eEcl),
    { t with val := [("ELONG", Real.pi / 2), ("ELAT", Real.pi / 2)] }, _, _,
    C101_epoch_false _ _ (Real.pi / 2) (Real.pi / 2) _ _ (3 * Real.pi / 2) (Real.pi / 2 - eEcl) (by simp [t]) (by decide) (by decide)
      (by rfl) (by rfl) (by decide) (by rfl) (by rfl) hw.symm hne⟩

/-- A frozen bin: `C102_frozen_false` applies. -/
example : ∃ (m : PintModel) (d : Dict String Dmx), pintDmx m = .ok d ∧ d.keys = ["DMX_0001"] ∧ "DMX_0002" ∈ m.params := by
  refine ⟨⟨"J0000+0000", ["DMX_0001", "DMX_0002"], [("DMX_0001", ⟨0.1, some 0.01, false⟩), ("DMXR1_0001", ⟨53000, none, true⟩),
    ("DMXR2_0001", ⟨53007, none, true⟩), ("DMX_0002", ⟨0.2, none, true⟩)]⟩, _, rfl, rfl, by decide⟩

/-- All columns: `C103_pint` applies. -/
example : ∃ (t : PintTable) (rows : List Row), pintPlanets true t = .ok (some rows) ∧ rows.length = 2 := by
  let t : PintTable := ⟨[("obs_earth_pos", [![1, 2, 3], ![1, 2, 3]]), ("obs_jupiter_pos", [![1, 2, 3], ![1, 2, 3]]),
    ("obs_saturn_pos", [![1, 2, 3], ![1, 2, 3]]), ("obs_uranus_pos", [![1, 2, 3], ![1, 2, 3]]), ("obs_neptune_pos", [![1, 2, 3], ![1, 2, 3]])], [![1, 0, 0], ![0, 1, 0]]⟩
  obtain ⟨rows, h, hl, -⟩ := C103_pint t (fun _ => [![1, 2, 3], ![1, 2, 3]]) (fun _ _ => rfl) rfl rfl rfl rfl rfl
  exact ⟨t, rows, h, hl⟩

/-- C102: `psr.dmx` is `None` exactly when there are no bins, and the dictionary otherwise. -/
theorem C102_none {α : Type} (d : Dict String α) : (orNone d = none ↔ ∀ k, d.get? k = none) ∧ ∀ e, orNone d = some e → e = d := by
  unfold orNone
  cases d with
  | nil => exact ⟨⟨fun _ k => rfl, fun _ => rfl⟩, fun e h => by simp at h⟩
  | cons x t =>
    refine ⟨⟨fun h => by simp at h, fun h => ?_⟩, fun e h => by simpa using h.symm⟩
    have := h x.1
    rw [Dict.get?_cons, if_pos rfl] at this
    cases this

/-- C102: with libstempo the fitted parameters are the offset and those that tempo2 fits, in its order, and the set ones are
the others. -/
theorem C102_setpars (t : T2) : (t2Fitpars t).head? = some "Offset" ∧ (t2Fitpars t).tail = t.fitted ∧
    (∀ p, p ∈ t2Setpars t ↔ p ∈ t.set ∧ p ∉ t.fitted ∧ p ≠ "Offset") ∧ (t2Setpars t).Sublist t.set ∧
    (t2Fitpars t).Disjoint (t2Setpars t) := by
  refine ⟨rfl, rfl, fun p => ?_, List.filter_sublist, ?_⟩
  · simp only [t2Setpars, t2Fitpars, List.mem_filter, List.mem_cons, not_or, decide_eq_true_eq]
    tauto
  · intro p h1 h2
    simp only [t2Setpars, List.mem_filter, decide_eq_true_eq] at h2
    exact h2.2 h1

end Verif.Sources
