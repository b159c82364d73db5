import Verif.Model.EpochEphem
import Verif.Props.Ephem
import Verif.Props.Quantize

/-!
# The ephemeris signal on epoch-averaged TOAs: C119
-/

namespace Verif.EpochEphem

open Verif Verif.Orf Verif.Ephem Verif.Quantize

/-! ## Interpolation -/

/-- Where `np.interp` looks. -/
theorem interpFrom_find (x : ℝ) (g : Nat → ℝ × ℝ) (m k : Nat) (hk : (g k).1 ≤ x) :
    ∃ j, k ≤ j ∧ j ≤ k + m ∧ (g j).1 ≤ x ∧
      ((j = k + m ∧ interpFrom x (g k) ((List.range' (k + 1) m).map g) = (g j).2) ∨
        (j < k + m ∧ x < (g (j + 1)).1 ∧ interpFrom x (g k) ((List.range' (k + 1) m).map g) =
          ((g (j + 1)).2 - (g j).2) / ((g (j + 1)).1 - (g j).1) * (x - (g j).1) + (g j).2)) := by
  induction m generalizing k with
  | zero => exact ⟨k, le_rfl, le_rfl, hk, Or.inl ⟨rfl, rfl⟩⟩
  | succ m ih =>
    rw [List.range'_succ, List.map_cons]
    by_cases h : x < (g (k + 1)).1
    · refine ⟨k, le_rfl, by omega, hk, Or.inr ⟨by omega, h, ?_⟩⟩
      simp only [interpFrom]
      rw [if_pos h]
    · obtain ⟨j, h1, h2, h3, h4⟩ := ih (k + 1) (not_lt.1 h)
      refine ⟨j, by omega, by omega, h3, ?_⟩
      simp only [interpFrom]
      rw [if_neg h]
      rcases h4 with ⟨a, b⟩ | ⟨a, b, c⟩
      · exact Or.inl ⟨by omega, b⟩
      · exact Or.inr ⟨by omega, b, c⟩

/-- TOAs that never decrease. -/
def Sorted (toas : List ℝ) : Prop := ∀ i j, i ≤ j → j < toas.length → toas.getD i 0 ≤ toas.getD j 0

theorem zip_rows (toas : List ℝ) (f : Nat → ℝ) : toas.zip ((List.range toas.length).map f) =
    (List.range toas.length).map fun i => (toas.getD i 0, f i) := by
  refine List.ext_getElem (by simp) fun i h1 h2 => ?_
  have hi : i < toas.length := by simpa using h2
  simp [List.getElem?_eq_getElem hi]

/-- Between two TOAs: the value lies between those at two TOAs that are not outside. -/
theorem npInterp_between (toas : List ℝ) (hs : Sorted toas) (f : Nat → ℝ) (x : ℝ) (i₀ i₁ : Nat) (h₀ : i₀ < toas.length)
    (h₁ : i₁ < toas.length) (hx0 : toas.getD i₀ 0 ≤ x) (hx1 : x ≤ toas.getD i₁ 0) :
    ∃ j k, j < toas.length ∧ k < toas.length ∧ toas.getD i₀ 0 ≤ toas.getD j 0 ∧ toas.getD j 0 ≤ toas.getD i₁ 0 ∧
      toas.getD i₀ 0 ≤ toas.getD k 0 ∧ toas.getD k 0 ≤ toas.getD i₁ 0 ∧
      f j ≤ npInterp x toas ((List.range toas.length).map f) ∧ npInterp x toas ((List.range toas.length).map f) ≤ f k := by
  obtain ⟨m, hm⟩ : ∃ m, toas.length = m + 1 := ⟨toas.length - 1, by omega⟩
  have key : ∃ j, j < toas.length ∧ toas.getD j 0 ≤ x ∧
      ((∀ i, i < toas.length → toas.getD i 0 ≤ x → i ≤ j)) ∧
      ((npInterp x toas ((List.range toas.length).map f) = f j ∧ j = m) ∨
        (j < m ∧ x < toas.getD (j + 1) 0 ∧ npInterp x toas ((List.range toas.length).map f) =
          (f (j + 1) - f j) / (toas.getD (j + 1) 0 - toas.getD j 0) * (x - toas.getD j 0) + f j)) := by
    set g : Nat → ℝ × ℝ := fun i => (toas.getD i 0, f i) with hg
    have hlast : ((List.range toas.length).map g).getLast? = some (g m) := by
      rw [hm, List.range_succ, List.map_append]; simp
    have hcons : (List.range toas.length).map g = g 0 :: (List.range' 1 m).map g := by
      rw [hm, List.range_eq_range', List.range'_succ, List.map_cons]
    have hnl : ¬((g m).1 < x) := by
      have := hs i₁ m (by omega) (by omega)
      simp only [hg]
      linarith
    have hnf : ¬(x < (g 0).1) := by
      have := hs 0 i₀ (by omega) h₀
      simp only [hg]
      linarith
    have hv : npInterp x toas ((List.range toas.length).map f) = interpFrom x (g 0) ((List.range' 1 m).map g) := by
      unfold npInterp
      rw [zip_rows, hlast]
      simp only
      rw [if_neg hnl, hcons]
      simp only
      rw [if_neg hnf]
    obtain ⟨j, -, h2, h3, h4⟩ := interpFrom_find x g m 0 (not_lt.1 hnf)
    rw [zero_add] at h2 h4
    refine ⟨j, by omega, h3, ?_, ?_⟩
    · intro i hi hix
      rcases h4 with ⟨a, -⟩ | ⟨a, b, -⟩
      · omega
      · by_contra hc
        have := hs (j + 1) i (by omega) hi
        simp only [hg] at b
        linarith
    · rw [hv]
      rcases h4 with ⟨a, b⟩ | ⟨a, b, c⟩
      · exact Or.inl ⟨b, a⟩
      · exact Or.inr ⟨a, b, c⟩
  obtain ⟨j, hj, hjx, hmax, hval⟩ := key
  have hj0 : toas.getD i₀ 0 ≤ toas.getD j 0 := hs i₀ j (hmax i₀ h₀ hx0) hj
  have hj1 : toas.getD j 0 ≤ toas.getD i₁ 0 := hjx.trans hx1
  rcases hval with ⟨hv, -⟩ | ⟨hlt, hxj, hv⟩
  · exact ⟨j, j, hj, hj, hj0, hj1, hj0, hj1, hv.ge, hv.le⟩
  · rcases eq_or_lt_of_le hjx with e | e
    · rw [← e, sub_self, mul_zero, zero_add, e] at hv
      exact ⟨j, j, hj, hj, hj0, hj1, hj0, hj1, hv.ge, hv.le⟩
    · have hj1' : j + 1 < toas.length := by omega
      have hi1 : j + 1 ≤ i₁ := by
        by_contra hc
        have := hs i₁ j (by omega) hj
        linarith
      have a1 : toas.getD i₀ 0 ≤ toas.getD (j + 1) 0 := hj0.trans (hs j (j + 1) (by omega) hj1')
      have a2 : toas.getD (j + 1) 0 ≤ toas.getD i₁ 0 := hs (j + 1) i₁ hi1 h₁
      set w := (x - toas.getD j 0) / (toas.getD (j + 1) 0 - toas.getD j 0) with hw
      have hd : 0 < toas.getD (j + 1) 0 - toas.getD j 0 := by linarith
      have hw0 : 0 ≤ w := div_nonneg (by linarith) hd.le
      have hw1 : w ≤ 1 := (div_le_one hd).2 (by linarith)
      have hv' : npInterp x toas ((List.range toas.length).map f) = w * (f (j + 1) - f j) + f j := by
        rw [hv, hw]; ring
      rw [hv']
      rcases le_total (f j) (f (j + 1)) with c | c
      · exact ⟨j, j + 1, hj, hj1', hj0, hj1, a1, a2, by nlinarith, by nlinarith⟩
      · exact ⟨j + 1, j, hj1', hj, a1, a2, hj0, hj1, by nlinarith, by nlinarith⟩

/-! ## Means -/

theorem sum_lt (l : List Nat) (t : Nat → ℝ) (c : ℝ) (hl : l ≠ []) (h : ∀ i ∈ l, c < t i) : c * l.length < (l.map t).sum := by
  induction l with
  | nil => exact absurd rfl hl
  | cons a l ih =>
    rw [List.map_cons, List.sum_cons, List.length_cons]
    push_cast
    have ha := h a List.mem_cons_self
    by_cases hn : l = []
    · subst hn; simp; linarith
    · have := ih hn fun i hi => h i (List.mem_cons_of_mem _ hi)
      linarith

theorem lt_sum (l : List Nat) (t : Nat → ℝ) (c : ℝ) (hl : l ≠ []) (h : ∀ i ∈ l, t i < c) : (l.map t).sum < c * l.length := by
  have := sum_lt l (fun i => -t i) (-c) hl fun i hi => neg_lt_neg (h i hi)
  have e : (l.map fun i => -t i).sum = -(l.map t).sum := by
    clear this h hl
    induction l with
    | nil => simp
    | cons a l ih => simp only [List.map_cons, List.sum_cons, ih]; ring
  rw [e] at this
  linarith

/-- The mean lies between two of the numbers. -/
theorem mean_between (toas : List ℝ) (sc : List Nat) (hl : sc ≠ []) :
    ∃ i ∈ sc, ∃ j ∈ sc, toas.getD i 0 ≤ mean toas sc ∧ mean toas sc ≤ toas.getD j 0 := by
  have hpos : (0 : ℝ) < sc.length := by exact_mod_cast List.length_pos_iff.2 hl
  have hm : mean toas sc * sc.length = (sc.map fun i => toas.getD i 0).sum := by
    unfold mean; field_simp
  have h1 : ∃ i ∈ sc, toas.getD i 0 ≤ mean toas sc := by
    by_contra hc
    push Not at hc
    have := sum_lt sc (fun i => toas.getD i 0) _ hl hc
    linarith
  have h2 : ∃ j ∈ sc, mean toas sc ≤ toas.getD j 0 := by
    by_contra hc
    push Not at hc
    have := lt_sum sc (fun i => toas.getD i 0) _ hl hc
    linarith
  obtain ⟨i, hi, h1⟩ := h1
  obtain ⟨j, hj, h2⟩ := h2
  exact ⟨i, hi, j, hj, h1, h2⟩

/-! ## Epochs -/

/-- The epochs of a pulsar: not empty, disjoint, complete, windows of a second. -/
structure Epochs (p : Psr) (es : List Epoch) : Prop where
  made : ∀ e ∈ es, e = epoch p e.idx
  nonempty : ∀ e ∈ es, e.idx ≠ []
  bound : ∀ e ∈ es, ∀ i ∈ e.idx, i < p.toas.length
  cover : ∀ i < p.toas.length, ∃ e ∈ es, i ∈ e.idx
  disjoint : ∀ (a b : Nat) (e f : Epoch) (i : Nat), es[a]? = some e → es[b]? = some f → i ∈ e.idx → i ∈ f.idx → a = b
  window : ∀ e ∈ es, ∃ r, ∀ i < p.toas.length, (i ∈ e.idx ↔ r ≤ p.toas.getD i 0 ∧ p.toas.getD i 0 < r + 1)

/-- **C119, epochs.**  The constructor puts every TOA in exactly one epoch; an epoch is the set of all TOAs in a window of one second. -/
theorem C119_epochs (isort : List Nat) (p : Psr) (hs : IsArgsort p.toas isort) (hne : p.toas ≠ []) :
    ∃ es, init isort p = .ok es ∧ Epochs p es := by
  obtain ⟨cols, hq, hshape, -, hcnt, hord, hcov, hwin⟩ := C09_epochs p.toas isort 1 1 one_pos hs hne
  obtain ⟨cols', inds, hq', hi, hlen, hmem⟩ := C11_of_quantization p.toas isort 1 1 false one_pos hs hne le_rfl
  rw [hq] at hq'
  obtain rfl : cols = cols' := Except.ok.inj hq'
  refine ⟨(inds.map indicesFromSlice).map (epoch p), ?_, ?_⟩
  · unfold init
    rw [hq]
    simp only [bind, Except.bind]
    rw [hi]
  have hat : ∀ (a : Nat) (e : Epoch), ((inds.map indicesFromSlice).map (epoch p))[a]? = some e →
      ∃ c, cols[a]? = some c ∧ e = epoch p e.idx ∧ ∀ i, i ∈ e.idx ↔ InEpoch c i := by
    intro a e h
    simp only [List.getElem?_map, Option.map_map, Option.map_eq_some_iff] at h
    obtain ⟨r, hr, rfl⟩ := h
    have ha : a < cols.length := by rw [← hlen]; exact (List.getElem?_eq_some_iff.1 hr).1
    exact ⟨cols[a], List.getElem?_eq_getElem ha, rfl, hmem a _ r (List.getElem?_eq_getElem ha) hr⟩
  have hmem' : ∀ e ∈ (inds.map indicesFromSlice).map (epoch p), ∃ c ∈ cols, e = epoch p e.idx ∧ ∀ i, i ∈ e.idx ↔ InEpoch c i := by
    intro e he
    obtain ⟨a, ha⟩ := List.getElem?_of_mem he
    obtain ⟨c, hc, h1, h2⟩ := hat a e ha
    exact ⟨c, List.mem_of_getElem? hc, h1, h2⟩
  have hget : ∀ i (hi : i < p.toas.length), p.toas[i]? = some (p.toas.getD i 0) := fun i hi => by
    simp [List.getElem?_eq_getElem hi]
  refine ⟨fun e he => ?_, fun e he => ?_, fun e he i hi => ?_, fun i hi => ?_, ?_, fun e he => ?_⟩
  · obtain ⟨c, -, h, -⟩ := hmem' e he
    exact h
  · obtain ⟨c, hc, -, h⟩ := hmem' e he
    obtain ⟨i, x, hin, -⟩ := hwin c hc
    exact List.ne_nil_of_mem ((h i).2 hin)
  · obtain ⟨c, hc, -, h⟩ := hmem' e he
    rw [← (hshape c hc).1]
    exact (List.getElem?_eq_some_iff.1 ((h i).1 hi)).1
  · obtain ⟨c, hc, hin⟩ := hcov le_rfl i hi
    obtain ⟨a, ha⟩ := List.getElem?_of_mem hc
    have hal : a < inds.length := by rw [hlen]; exact (List.getElem?_eq_some_iff.1 ha).1
    refine ⟨epoch p (indicesFromSlice inds[a]), ?_, ?_⟩
    · exact List.mem_map.2 ⟨_, List.mem_map.2 ⟨_, List.getElem_mem hal, rfl⟩, rfl⟩
    · exact (hmem a c _ ha (List.getElem?_eq_getElem hal) i).2 hin
  · intro a b e f i ha hb hie hif
    obtain ⟨c, hc, -, h1⟩ := hat a e ha
    obtain ⟨d, hd, -, h2⟩ := hat b f hb
    have hx : ∃ x, p.toas[i]? = some x := by
      have h3 := (List.getElem?_eq_some_iff.1 ((h1 i).1 hie)).1
      rw [(hshape c (List.mem_of_getElem? hc)).1] at h3
      exact ⟨_, List.getElem?_eq_getElem h3⟩
    obtain ⟨x, hx⟩ := hx
    rcases lt_trichotomy a b with h | h | h
    · exact absurd ((hord a b c d h hc hd).1 i i x x ((h1 i).1 hie) ((h2 i).1 hif) hx hx) (lt_irrefl _)
    · exact h
    · exact absurd ((hord b a d c h hd hc).1 i i x x ((h2 i).1 hif) ((h1 i).1 hie) hx hx) (lt_irrefl _)
  · obtain ⟨c, hc, -, h⟩ := hmem' e he
    obtain ⟨i0, x0, -, -, hw⟩ := hwin c hc
    exact ⟨x0, fun i hi => by rw [h i]; exact hw i _ (hget i hi)⟩

/-- Without TOAs the constructor raises. -/
theorem C119_empty (isort : List Nat) (p : Psr) (hs : IsArgsort p.toas isort) (hp : p.toas = []) : init isort p = .error .indexError := by
  have : isort = [] := by
    have := hs.perm
    rw [hp] at this
    simpa using this
  subst this
  rfl

/-! ## Delays -/

theorem assign_get (d : List ℝ) (slc : List Nat) (v : ℝ) (i : Nat) (hi : i < d.length) :
    (assign d slc v).length = d.length ∧ (assign d slc v)[i]? = if i ∈ slc then some v else d[i]? := by
  unfold assign
  induction slc generalizing d with
  | nil => simp
  | cons a l ih =>
    obtain ⟨h1, h2⟩ := ih (d.set a v) (by simpa using hi)
    rw [List.foldl_cons]
    refine ⟨by rw [h1, List.length_set], ?_⟩
    rw [h2, List.getElem?_set]
    by_cases hl : i ∈ l
    · simp [hl]
    · by_cases ha : a = i
      · subst ha; simp [hi]
      · simp [hl, ha, Ne.symm ha]

theorem assigns (xs : List (Epoch × ℝ)) (d : List ℝ) (i : Nat) (hi : i < d.length) (hd : xs.Pairwise fun x y => i ∈ x.1.idx → i ∉ y.1.idx) :
    let r := xs.foldl (fun d x => assign d x.1.idx x.2) d
    r.length = d.length ∧ (∀ x ∈ xs, i ∈ x.1.idx → r[i]? = some x.2) ∧ ((∀ x ∈ xs, i ∉ x.1.idx) → r[i]? = d[i]?) := by
  induction xs generalizing d with
  | nil => simp
  | cons y ys ih =>
    obtain ⟨a1, a2⟩ := assign_get d y.1.idx y.2 i hi
    rw [List.pairwise_cons] at hd
    obtain ⟨h1, h2, h3⟩ := ih (assign d y.1.idx y.2) (by rw [a1]; exact hi) hd.2
    refine ⟨by rw [List.foldl_cons]; exact h1.trans a1, ?_, ?_⟩
    · intro x hx hix
      rw [List.foldl_cons]
      rcases List.mem_cons.1 hx with rfl | hx
      · rw [h3 fun z hz => hd.1 z hz hix, a2, if_pos hix]
      · exact h2 x hx hix
    · intro hn
      rw [List.foldl_cons, h3 fun z hz => hn z (List.mem_cons_of_mem _ hz), a2, if_neg (hn y List.mem_cons_self)]

theorem mapM_at {α β : Type} (f : α → Except PyErr β) (l : List α) (r : List β) (h : l.mapM f = .ok r) :
    r.length = l.length ∧ ∀ (a : Nat) (x : α) (y : β), l[a]? = some x → r[a]? = some y → f x = .ok y := by
  induction l generalizing r with
  | nil =>
    obtain rfl : [] = r := Except.ok.inj h
    simp
  | cons x l ih =>
    rw [List.mapM_cons] at h
    cases hx : f x with
    | error e => rw [hx] at h; exact absurd h (by simp [bind, Except.bind])
    | ok y =>
      rw [hx] at h
      cases hl : l.mapM f with
      | error e => rw [hl] at h; exact absurd h (by simp [bind, Except.bind])
      | ok ys =>
        rw [hl] at h
        obtain rfl : y :: ys = r := Except.ok.inj h
        obtain ⟨h1, h2⟩ := ih ys hl
        refine ⟨by simp [h1], fun a x' y' ha hb => ?_⟩
        cases a with
        | zero =>
          simp at ha hb
          rw [← ha, ← hb]; exact hx
        | succ a => exact h2 a x' y' (by simpa using ha) (by simpa using hb)

/-- **C119.**  Every TOA gets the delay computed at the average of its own epoch, whatever was in the array before. -/
theorem C119_delays {n : Nat} (p : Psr) (es : List Epoch) (he : Epochs p es) (d : List ℝ) (hd : d.length = p.toas.length) (par : Params)
    (files : Option (Orbits n)) (r : List ℝ) (h : getDelay es d par files = .ok r) :
    r.length = p.toas.length ∧
      ∀ e ∈ es, ∀ i ∈ e.idx, ∃ v, Ephem.delay e.ave e.planets e.pos par files true = .ok v ∧ r[i]? = some v := by
  unfold getDelay at h
  cases hm : es.mapM (fun e => Ephem.delay e.ave e.planets e.pos par files true) with
  | error e => rw [hm] at h; exact absurd h (by simp [bind, Except.bind])
  | ok vs =>
    rw [hm] at h
    obtain rfl := Except.ok.inj h
    obtain ⟨hl, hat⟩ := mapM_at _ _ _ hm
    have hpw : ∀ i, (es.zip vs).Pairwise fun x y => i ∈ x.1.idx → i ∉ y.1.idx := by
      intro i
      rw [List.pairwise_iff_getElem]
      intro a b ha hb hab h1 h2
      have ha' : a < es.length := by simp at ha; omega
      have hb' : b < es.length := by simp at hb; omega
      rw [List.getElem_zip] at h1 h2
      have := he.disjoint a b _ _ i (List.getElem?_eq_getElem ha') (List.getElem?_eq_getElem hb') h1 h2
      omega
    constructor
    · by_cases hp : 0 < d.length
      · rw [(assigns (es.zip vs) d 0 hp (hpw 0)).1, hd]
      · have : d = [] := List.length_eq_zero_iff.1 (by omega)
        have hne : ∀ (xs : List (Epoch × ℝ)), (xs.foldl (fun d x => assign d x.1.idx x.2) ([] : List ℝ)) = [] := by
          intro xs
          have ha : ∀ (slc : List Nat) (v : ℝ), assign [] slc v = [] := by
            intro slc v
            unfold assign
            induction slc with
            | nil => rfl
            | cons a l ih => rw [List.foldl_cons]; exact ih
          induction xs with
          | nil => rfl
          | cons x xs ih => rw [List.foldl_cons, ha]; exact ih
        subst this
        rw [hne]
        simpa using hd
    · intro e hmem i hi
      obtain ⟨a, ha⟩ := List.getElem?_of_mem hmem
      have hal : a < vs.length := by rw [hl]; exact (List.getElem?_eq_some_iff.1 ha).1
      refine ⟨vs[a], hat a e _ ha (List.getElem?_eq_getElem hal), ?_⟩
      have hil : i < d.length := by rw [hd]; exact he.bound e hmem i hi
      refine (assigns (es.zip vs) d i hil (hpw i)).2.1 (e, vs[a]) ?_ hi
      refine List.mem_iff_getElem?.2 ⟨a, ?_⟩
      rw [List.getElem?_zip_eq_some]
      exact ⟨ha, List.getElem?_eq_getElem hal⟩

/-- What was in the array before does not matter. -/
theorem C119_overwrites {n : Nat} (p : Psr) (es : List Epoch) (he : Epochs p es) (d d' : List ℝ) (hd : d.length = p.toas.length)
    (hd' : d'.length = p.toas.length) (par : Params) (files : Option (Orbits n)) : getDelay es d par files = getDelay es d' par files := by
  cases hm : es.mapM (fun e => Ephem.delay e.ave e.planets e.pos par files true) with
  | error e => simp only [getDelay, hm, bind, Except.bind]
  | ok vs =>
    obtain ⟨r, hr⟩ : ∃ r, getDelay es d par files = .ok r := ⟨_, by simp only [getDelay, hm, bind, Except.bind]; rfl⟩
    obtain ⟨r', hr'⟩ : ∃ r, getDelay es d' par files = .ok r := ⟨_, by simp only [getDelay, hm, bind, Except.bind]; rfl⟩
    obtain ⟨l1, a1⟩ := C119_delays p es he d hd par files r hr
    obtain ⟨l2, a2⟩ := C119_delays p es he d' hd' par files r' hr'
    rw [hr, hr']
    congr 1
    refine List.ext_getElem? fun i => ?_
    by_cases hi : i < p.toas.length
    · obtain ⟨e, hmem, hie⟩ := he.cover i hi
      obtain ⟨v, h1, h2⟩ := a1 e hmem i hie
      obtain ⟨w, h3, h4⟩ := a2 e hmem i hie
      rw [h1] at h3
      rw [h2, h4, Except.ok.inj h3]
    · rw [List.getElem?_eq_none (by omega), List.getElem?_eq_none (by omega)]

/-- **C119, interpolation.**  When the TOAs are in order, every coordinate of the planets and of the pulsar used for an epoch lies
between its values at two TOAs of that epoch. -/
theorem C119_between (p : Psr) (hs : Sorted p.toas) (es : List Epoch) (he : Epochs p es) (e : Epoch) (hmem : e ∈ es) :
    (∃ i ∈ e.idx, ∃ j ∈ e.idx, p.toas.getD i 0 ≤ e.ave ∧ e.ave ≤ p.toas.getD j 0) ∧
    (∀ jj aa, ∃ i ∈ e.idx, ∃ j ∈ e.idx, p.planetssb i jj aa ≤ e.planets jj aa ∧ e.planets jj aa ≤ p.planetssb j jj aa) ∧
    (∀ aa, ∃ i ∈ e.idx, ∃ j ∈ e.idx, p.pos_t i aa ≤ e.pos aa ∧ e.pos aa ≤ p.pos_t j aa) := by
  obtain ⟨i, hi, j, hj, h1, h2⟩ := mean_between p.toas e.idx (he.nonempty e hmem)
  have hm := he.made e hmem
  have have_ave : e.ave = mean p.toas e.idx := by rw [hm]; rfl
  obtain ⟨r, hr⟩ := he.window e hmem
  have hil := he.bound e hmem i hi
  have hjl := he.bound e hmem j hj
  have w1 := (hr i hil).1 hi
  have w2 := (hr j hjl).1 hj
  have use : ∀ f : Nat → ℝ, ∃ i ∈ e.idx, ∃ j ∈ e.idx,
      f i ≤ npInterp (mean p.toas e.idx) p.toas ((List.range p.toas.length).map f) ∧
      npInterp (mean p.toas e.idx) p.toas ((List.range p.toas.length).map f) ≤ f j := by
    intro f
    obtain ⟨a, b, ha, hb, a1, a2, b1, b2, c1, c2⟩ := npInterp_between p.toas hs f (mean p.toas e.idx) i j hil hjl h1 h2
    exact ⟨a, (hr a ha).2 ⟨w1.1.trans a1, a2.trans_lt w2.2⟩, b, (hr b hb).2 ⟨w1.1.trans b1, b2.trans_lt w2.2⟩, c1, c2⟩
  refine ⟨⟨i, hi, j, hj, by rw [have_ave]; exact h1, by rw [have_ave]; exact h2⟩, fun jj aa => ?_, fun aa => ?_⟩
  · have : e.planets jj aa = npInterp (mean p.toas e.idx) p.toas ((List.range p.toas.length).map fun i => p.planetssb i jj aa) := by
      rw [hm]; rfl
    rw [this]
    exact use fun i => p.planetssb i jj aa
  · have : e.pos aa = npInterp (mean p.toas e.idx) p.toas ((List.range p.toas.length).map fun i => p.pos_t i aa) := by
      rw [hm]; rfl
    rw [this]
    exact use fun i => p.pos_t i aa

theorem mapM_all_ok {α β : Type} (f : α → Except PyErr β) (l : List α) (g : α → β) (h : ∀ x ∈ l, f x = .ok (g x)) : l.mapM f = .ok (l.map g) := by
  induction l with
  | nil => rfl
  | cons x l ih =>
    rw [List.mapM_cons, h x List.mem_cons_self, ih fun y hy => h y (List.mem_cons_of_mem _ hy)]
    rfl

/-- **C119, same delays.**  When the TOAs are in order and those less than a second apart have the same time and positions (or there are
none), the delays are those without averaging. -/
theorem C119_partial {n : Nat} (isort : List Nat) (p : Psr) (ha : IsArgsort p.toas isort) (hne : p.toas ≠ []) (hs : Sorted p.toas)
    (hsame : ∀ i j, i < p.toas.length → j < p.toas.length → |p.toas.getD i 0 - p.toas.getD j 0| < 1 →
      p.toas.getD i 0 = p.toas.getD j 0 ∧ p.planetssb i = p.planetssb j ∧ p.pos_t i = p.pos_t j)
    (d : List ℝ) (hd : d.length = p.toas.length) (par : Params) (files : Orbits (n + 1)) :
    ∃ es, init isort p = .ok es ∧ getDelay es d par (some files) = getDelayAll p par (some files) := by
  obtain ⟨es, h1, he⟩ := C119_epochs isort p ha hne
  refine ⟨es, h1, ?_⟩
  have hep : ∀ e ∈ es, ∀ i ∈ e.idx, e.ave = p.toas.getD i 0 ∧ e.planets = p.planetssb i ∧ e.pos = p.pos_t i := by
    intro e hmem i hi
    obtain ⟨⟨a, ha, b, hb, c1, c2⟩, hpl, hpo⟩ := C119_between p hs es he e hmem
    obtain ⟨r, hr⟩ := he.window e hmem
    have same : ∀ a ∈ e.idx, p.toas.getD a 0 = p.toas.getD i 0 ∧ p.planetssb a = p.planetssb i ∧ p.pos_t a = p.pos_t i := by
      intro a ha
      have hal := he.bound e hmem a ha
      have hil := he.bound e hmem i hi
      have w1 := (hr a hal).1 ha
      have w2 := (hr i hil).1 hi
      exact hsame a i hal hil (by rw [abs_sub_lt_iff]; constructor <;> linarith [w1.1, w1.2, w2.1, w2.2])
    refine ⟨le_antisymm ?_ ?_, ?_, ?_⟩
    · rw [← (same b hb).1]; exact c2
    · rw [← (same a ha).1]; exact c1
    · funext jj aa
      obtain ⟨u, hu, v, hv, d1, d2⟩ := hpl jj aa
      rw [(same u hu).2.1] at d1
      rw [(same v hv).2.1] at d2
      exact le_antisymm d2 d1
    · funext aa
      obtain ⟨u, hu, v, hv, d1, d2⟩ := hpo aa
      rw [(same u hu).2.2] at d1
      rw [(same v hv).2.2] at d2
      exact le_antisymm d2 d1
  have hok : ∀ (toa : ℝ) (planets : Fin 9 → Pos) (pos : Pos), ∃ v, Ephem.delay toa planets pos par (some files) true = .ok v :=
    fun toa planets pos => ⟨_, C95 toa planets pos par files true⟩
  have hm := mapM_all_ok (fun e : Epoch => Ephem.delay e.ave e.planets e.pos par (some files) true) es
    (fun e => (hok e.ave e.planets e.pos).choose) fun e _ => (hok e.ave e.planets e.pos).choose_spec
  obtain ⟨r, hr⟩ : ∃ r, getDelay es d par (some files) = .ok r := ⟨_, by simp only [getDelay, hm, bind, Except.bind]; rfl⟩
  obtain ⟨l1, a1⟩ := C119_delays p es he d hd par (some files) r hr
  rw [hr]
  unfold getDelayAll
  rw [mapM_all_ok _ _ (fun i => r.getD i 0)]
  · congr 1
    refine List.ext_getElem (by simp [l1]) fun i h2 h3 => ?_
    simp [List.getElem?_eq_getElem h2]
  · intro i hi
    have hi := List.mem_range.1 hi
    obtain ⟨e, hmem, hie⟩ := he.cover i hi
    obtain ⟨e1, e2, e3⟩ := hep e hmem i hie
    obtain ⟨v, h2, h3⟩ := a1 e hmem i hie
    rw [← e1, ← e2, ← e3, h2]
    simp [h3]

/-- Two channels of one observation and an observation a day later. -/
noncomputable def twoChannels : Psr where
  toas := [0, 0, 86400]
  planetssb := fun i _ => if i < 2 then ![1, 2, 3] else ![4, 5, 6]
  pos_t := fun _ => ![1, 0, 0]

example (d : List ℝ) (hd : d.length = 3) (par : Params) (files : Orbits 5) : ∃ es, init [1, 0, 2] twoChannels = .ok es ∧
    getDelay es d par (some files) = getDelayAll twoChannels par (some files) := by
  have hl : twoChannels.toas.length = 3 := rfl
  have h0 : twoChannels.toas.getD 0 0 = 0 := rfl
  have h1 : twoChannels.toas.getD 1 0 = 0 := rfl
  have h2 : twoChannels.toas.getD 2 0 = 86400 := rfl
  refine C119_partial [1, 0, 2] twoChannels ⟨?_, ?_⟩ (by simp [twoChannels]) ?_ ?_ d hd par files
  · rw [hl]; decide
  · simp [twoChannels]
  · intro i j hij hj
    rw [hl] at hj
    have : i < 3 := by omega
    interval_cases i <;> interval_cases j <;> simp only [h0, h1, h2] <;> first | norm_num | omega
  · intro i j hi hj hlt
    rw [hl] at hi hj
    interval_cases i <;> interval_cases j <;> simp only [h0, h1, h2] at hlt ⊢ <;>
      first | (exfalso; norm_num at hlt; done) | simp [twoChannels]

/-! ## TOAs out of order -/

/-- A pulsar loaded with `sort=False`, with two TOAs a day apart, the later first. -/
noncomputable def late : Psr where
  toas := [86400, 0]
  planetssb := fun i jj => if jj = 4 then (if i = 0 then ![1, 0, 0] else ![2, 0, 0]) else 0
  pos_t := fun _ => ![1, 0, 0]

theorem late_argsort : IsArgsort late.toas [1, 0] := by
  refine ⟨?_, by simp [late]⟩
  simp only [late, List.length_cons, List.length_nil]
  exact List.Perm.swap 0 1 []

noncomputable def lateJupiter (j : ℝ) : Fin 9 → Pos := fun jj => if jj = 4 then ![j, 0, 0] else 0

theorem late_init : init [1, 0] late = .ok [⟨[1], 0, lateJupiter 1, ![1, 0, 0]⟩, ⟨[0], 86400, lateJupiter 2, ![1, 0, 0]⟩] := by
  have h1 : quantCols late.toas [1, 0] 1 1 = .ok [[0, 1], [1, 0]] := by
    norm_num [quantCols, late, bucketLoop, indicatorCol, List.range_succ]
  have h2 : quant2ind ([[0, 1], [1, 0]] : List (List ℝ)) false = .ok [.arr [1], .arr [0]] := by
    simp [quant2ind, quant2indCol, flatnonzero, List.range_succ, List.mapM_cons, bind, Except.bind, pure, Except.pure]
  unfold init
  rw [h1]
  simp only [bind, Except.bind]
  rw [h2]
  simp only [List.map_cons, List.map_nil, indicesFromSlice]
  have m1 : mean late.toas [1] = 0 := by simp [mean, late]
  have m0 : mean late.toas [0] = 86400 := by simp [mean, late]
  have i1 : ∀ f : Nat → ℝ, npInterp 0 late.toas ((List.range late.toas.length).map f) = f 0 := by
    intro f
    simp [npInterp, late, List.range_succ]
  have i0 : ∀ f : Nat → ℝ, npInterp 86400 late.toas ((List.range late.toas.length).map f) = f 1 := by
    intro f
    simp [npInterp, late, List.range_succ]
  unfold epoch
  simp only [m1, m0, i1, i0]
  congr 2

theorem late_delay (toa j : ℝ) : Ephem.delay (n := 0) toa (lateJupiter j) ![1, 0, 0] { d_jupiter_mass := 1 } none true = .ok (-j) := by
  rw [C95_without_files toa _ _ _ rfl rfl]
  rw [framePart_zero]
  congr 1
  simp [lateJupiter, dot, Fin.sum_univ_three]

/-- **C119, out of order.**  With TOAs out of order each TOA gets the delay computed with the other's positions. -/
theorem C119_false : ∃ es, init [1, 0] late = .ok es ∧
    getDelay (n := 0) es [0, 0] { d_jupiter_mass := 1 } none = .ok [-2, -1] ∧
    getDelayAll (n := 0) late { d_jupiter_mass := 1 } none = .ok [-1, -2] := by
  refine ⟨_, late_init, ?_, ?_⟩
  · simp only [getDelay, List.mapM_cons, List.mapM_nil, late_delay, bind, Except.bind, pure, Except.pure]
    simp [assign]
  · have e0 : late.planetssb 0 = lateJupiter 1 := by funext jj; simp [late, lateJupiter]
    have e1 : late.planetssb 1 = lateJupiter 2 := by funext jj; simp [late, lateJupiter]
    have e2 : late.toas.length = 2 := rfl
    have e3 : ∀ i, late.pos_t i = ![1, 0, 0] := fun _ => rfl
    unfold getDelayAll
    rw [e2, List.range_succ, List.range_succ]
    simp only [List.range_zero, List.nil_append, List.cons_append, List.mapM_cons, List.mapM_nil, e0, e1, e3, late_delay, bind, Except.bind,
      pure, Except.pure]

end Verif.EpochEphem
