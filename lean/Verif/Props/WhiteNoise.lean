import Verif.Lemmas.WhiteNoise
import Mathlib.Algebra.BigOperators.Group.List.Basic
import Mathlib.Tactic.NormNum
import Mathlib.Algebra.Order.Ring.Rat

/-!
# Properties C07, C08: white-noise variances and deterministic delays per selection
-/

namespace Verif.WhiteNoise

open Verif

section
variable {K : Type*} [Field K]

/-- The contribution of one mask to TOA `i`: its variance if the TOA is in the mask. -/
def contribution (ndiag : String → List K) (i : Nat) (km : String × Mask) : K :=
  if km.2[i]? = some true then ((ndiag km.1)[i]?).getD 0 else 0

/-- Any masks: the variance of TOA `i` is the sum of the variances of the masks holding it,
in whatever order the masks were given. -/
theorem C07_sum (n : Nat) (masks : Dict String Mask) (ndiag : String → List K)
    (hn : (masks.map Prod.fst).Nodup)
    (hlen : ∀ km ∈ masks, km.2.length = n) (hv : ∀ km ∈ masks, (ndiag km.1).length = n) :
    (getNdiag n masks ndiag).length = n ∧
    ∀ i, i < n → (getNdiag n masks ndiag)[i]? =
      some ((masks.map (contribution ndiag i)).sum) := by
  have hl' : ∀ km ∈ sortedItems masks, km.2.length = n :=
    fun km h => hlen km ((mem_sortedItems hn km).1 h)
  have hv' : ∀ km ∈ sortedItems masks, (ndiag km.1).length = n :=
    fun km h => hv km ((mem_sortedItems hn km).1 h)
  refine ⟨length_foldl_ndiag ndiag _ n hl' hv' _ (by simp), fun i hi => ?_⟩
  unfold getNdiag
  rw [getElem?_foldl_ndiag ndiag _ n hl' hv' _ i 0 (by simp [hi]) hi, zero_add]
  have hperm := (sortedItems_perm hn).map
    (fun km : String × Mask => if km.2.getD i false then (ndiag km.1).getD i 0 else 0)
  rw [hperm.sum_eq]
  congr 2
  apply List.map_congr_left
  intro km _
  have : ∀ o : Option Bool, o.getD false = true ↔ o = some true := by
    intro o; cases o <;> simp
  simp only [contribution, List.getD, this]

/-- For a partition of the TOAs, TOA `i` gets the variance of its own mask, and the variance
functions of the other masks do not matter. -/
theorem C07_own_selection (n : Nat) (masks : Dict String Mask) (ndiag : String → List K)
    (hp : IsPartition n masks) (hv : ∀ km ∈ masks, (ndiag km.1).length = n)
    (i : Nat) (hi : i < n) (k : String) (m : Mask) (hkm : (k, m) ∈ masks) (hin : InMask m i) :
    (getNdiag n masks ndiag)[i]? = (ndiag k)[i]? := by
  have hd : masks.Nodup := List.Nodup.of_map _ hp.keys_nodup
  rw [(C07_sum n masks ndiag hp.keys_nodup hp.length_eq hv).2 i hi]
  have hlt : i < (ndiag k).length := by rw [hv _ hkm]; exact hi
  obtain ⟨w, hw, huniq⟩ := hp.exists_unique i hi
  have hwk : (k, m) = w := huniq _ ⟨hkm, hin⟩
  subst hwk
  have : ∀ l : List (String × Mask), l.Nodup → (∀ km ∈ l, km ∈ masks) →
      (l.map (contribution ndiag i)).sum = if (k, m) ∈ l then (ndiag k)[i] else 0 := by
    intro l hl hsub
    induction l with
    | nil => simp
    | cons a t ih =>
      rw [List.nodup_cons] at hl
      rw [List.map_cons, List.sum_cons, ih hl.2 (fun km h => hsub km (by simp [h]))]
      by_cases ha : a = (k, m)
      · subst ha
        have h1 : contribution ndiag i (k, m) = (ndiag k)[i] := by
          unfold contribution
          rw [if_pos (show m[i]? = some true from hin)]; simp [hlt]
        simp [h1, hl.1]
      · have h1 : contribution ndiag i a = 0 := by
          unfold contribution
          rw [if_neg]
          intro hc
          exact ha (huniq a ⟨hsub a (by simp), hc⟩)
        have ha' : (k, m) ≠ a := fun h => ha h.symm
        simp [h1, ha']
  rw [this masks hd (fun _ h => h), if_pos hkm, List.getElem?_eq_getElem hlt]

/-- Changing the variance function (hence the parameters) of other masks leaves the variance
of a TOA unchanged. -/
theorem C07_other_params_irrelevant (n : Nat) (masks : Dict String Mask)
    (ndiag ndiag' : String → List K) (hp : IsPartition n masks)
    (hv : ∀ km ∈ masks, (ndiag km.1).length = n) (hv' : ∀ km ∈ masks, (ndiag' km.1).length = n)
    (i : Nat) (hi : i < n) (k : String) (m : Mask) (hkm : (k, m) ∈ masks) (hin : InMask m i)
    (hsame : ndiag k = ndiag' k) :
    (getNdiag n masks ndiag)[i]? = (getNdiag n masks ndiag')[i]? := by
  rw [C07_own_selection n masks ndiag hp hv i hi k m hkm hin,
    C07_own_selection n masks ndiag' hp hv' i hi k m hkm hin, hsame]

/-- A TOA in no mask gets zero variance. -/
theorem C07_uncovered_zero (n : Nat) (masks : Dict String Mask) (ndiag : String → List K)
    (hn : (masks.map Prod.fst).Nodup)
    (hlen : ∀ km ∈ masks, km.2.length = n) (hv : ∀ km ∈ masks, (ndiag km.1).length = n)
    (i : Nat) (hi : i < n) (hno : ∀ km ∈ masks, ¬ InMask km.2 i) :
    (getNdiag n masks ndiag)[i]? = some 0 := by
  rw [(C07_sum n masks ndiag hn hlen hv).2 i hi]
  congr 1
  apply List.sum_eq_zero
  intro x hx
  obtain ⟨km, hkm, rfl⟩ := List.mem_map.1 hx
  exact if_neg (hno km hkm)

end

-- A concrete partition with two backends and three TOAs.
example : IsPartition 3 [("b", [true, false, true]), ("a", [false, true, false])] := by
  refine ⟨by simp, by simp, ?_⟩
  intro i hi
  match i, hi with
  | 0, _ => exact ⟨("b", [true, false, true]), by simp [InMask], by rintro km ⟨h, h'⟩; simp at h; rcases h with rfl | rfl <;> simp_all [InMask]⟩
  | 1, _ => exact ⟨("a", [false, true, false]), by simp [InMask], by rintro km ⟨h, h'⟩; simp at h; rcases h with rfl | rfl <;> simp_all [InMask]⟩
  | 2, _ => exact ⟨("b", [true, false, true]), by simp [InMask], by rintro km ⟨h, h'⟩; simp at h; rcases h with rfl | rfl <;> simp_all [InMask]⟩

example : getNdiag 3 [("b", [true, false, true]), ("a", [false, true, false])]
    (fun k => if k = "a" then [10, 20, 30] else [(1 : ℚ), 2, 3]) = [1, 20, 3] := by
  decide +kernel

/-- Measurement noise: with a backend selection, TOA `i` has variance
`efac² (σᵢ² + 10^(2 log10_t2equad))` with the efac and equad of its own backend. -/
theorem C07_measurement_noise (masks : Dict String Mask) (toaerrs : List ℝ)
    (efac equad : String → ℝ) (hp : IsPartition toaerrs.length masks)
    (i : Nat) (e : ℝ) (he : toaerrs[i]? = some e)
    (k : String) (m : Mask) (hkm : (k, m) ∈ masks) (hin : InMask m i) :
    (getNdiag toaerrs.length masks (fun k => combinedNdiag toaerrs (efac k) (equad k)))[i]? =
      some (efac k ^ 2 * (e ^ 2 + (10 : ℝ) ^ (2 * equad k))) := by
  have hi : i < toaerrs.length := by
    by_contra hc
    rw [List.getElem?_eq_none (by omega)] at he
    cases he
  rw [C07_own_selection _ masks _ hp (by intro km _; simp [combinedNdiag]) i hi k m hkm hin]
  simp [combinedNdiag, he]

/-- EFAC only: the variance is `efac² σᵢ²` with the efac of the TOA's own backend. -/
theorem C07_efac (masks : Dict String Mask) (toaerrs : List ℝ)
    (efac : String → ℝ) (hp : IsPartition toaerrs.length masks)
    (i : Nat) (e : ℝ) (he : toaerrs[i]? = some e)
    (k : String) (m : Mask) (hkm : (k, m) ∈ masks) (hin : InMask m i) :
    (getNdiag toaerrs.length masks (fun k => efacNdiag toaerrs (efac k)))[i]? =
      some ((efac k * e) ^ 2) := by
  have hi : i < toaerrs.length := by
    by_contra hc
    rw [List.getElem?_eq_none (by omega)] at he
    cases he
  rw [C07_own_selection _ masks _ hp (by intro km _; simp [efacNdiag]) i hi k m hkm hin]
  simp [efacNdiag, he, mul_pow]

/-- TNEQUAD: the variance is the square of `10^log10_tnequad`, whatever the TOA. -/
theorem C07_tnequad (masks : Dict String Mask) (toas : List ℝ)
    (equad : String → ℝ) (hp : IsPartition toas.length masks)
    (i : Nat) (hi : i < toas.length)
    (k : String) (m : Mask) (hkm : (k, m) ∈ masks) (hin : InMask m i) :
    (getNdiag toas.length masks (fun k => tnequadNdiag toas (equad k)))[i]? =
      some (((10 : ℝ) ^ equad k) ^ 2) := by
  rw [C07_own_selection _ masks _ hp (by intro km _; simp [tnequadNdiag]) i hi k m hkm hin]
  simp only [tnequadNdiag, List.getElem?_map, List.getElem?_eq_getElem hi, Option.map_some, one_mul]
  rw [two_mul, Real.rpow_add (by norm_num), sq]

/-- MeasurementNoise and TNEquadNoise in one model: variances of several white-noise signals add
(`sum(ndiags)` at the pulsar level), so `efac² σ² + tnequad²`; with `efac = 1` the two equad
conventions agree. -/
theorem C07_conventions_agree (toaerrs : List ℝ) (q : ℝ) :
    List.zipWith (· + ·) (efacNdiag toaerrs 1) (tnequadNdiag toaerrs q) =
      combinedNdiag toaerrs 1 q := by
  induction toaerrs with
  | nil => rfl
  | cons a t ih =>
    simp only [efacNdiag, tnequadNdiag, combinedNdiag, List.map_cons, List.zipWith_cons_cons] at ih ⊢
    rw [ih]; simp

/-! ## C08 -/

section
variable {K : Type*} [Field K]

/-- The value the specification gives TOA `i`: the last mask (in the order listed) containing
it decides, and zero if there is none. -/
def lastValue (w : String → List K) (i : Nat) : List (String × Mask) → Option K
  | [] => some 0
  | km :: t => if ∃ km' ∈ t, km'.2[i]? = some true then lastValue w i t
               else if km.2[i]? = some true then (w km.1)[i]? else lastValue w i t

/-- General masks: the delay at TOA `i` is the waveform, at that TOA, of the last key in
sorted order whose mask holds the TOA; zero if there is none. `w key` is the waveform over
all TOAs; the code evaluates it on the masked TOAs only. -/
theorem C08_last_wins (n : Nat) (masks : Dict String Mask) (w : String → List K)
    (hn : (masks.map Prod.fst).Nodup)
    (hlen : ∀ km ∈ masks, km.2.length = n) (hw : ∀ km ∈ masks, (w km.1).length = n) :
    ∃ delay, getDelay n masks (fun k m => maskSelect (w k) m) = .ok delay ∧ delay.length = n ∧
      ∀ i, i < n → delay[i]? = lastValue w i (sortedItems masks) := by
  have hl' : ∀ km ∈ sortedItems masks, km.2.length = n :=
    fun km h => hlen km ((mem_sortedItems hn km).1 h)
  have hw' : ∀ km ∈ sortedItems masks, (w km.1).length = n :=
    fun km h => hw km ((mem_sortedItems hn km).1 h)
  unfold getDelay
  have key : ∀ (items : List (String × Mask)) (d : List K), d.length = n →
      (∀ km ∈ items, km.2.length = n) → (∀ km ∈ items, (w km.1).length = n) →
      ∃ delay, items.foldlM (delayStep fun k m => maskSelect (w k) m) d = Except.ok delay ∧
        delay.length = n ∧
        ∀ i, i < n → delay[i]? =
          if ∃ km ∈ items, km.2[i]? = some true then lastValue w i items else d[i]? := by
    intro items
    induction items with
    | nil =>
      intro d hd _ _
      exact ⟨d, rfl, hd, by simp⟩
    | cons km t ih =>
      intro d hd h1 h2
      have e1 : (maskSelect (w km.1) km.2).length = maskCount km.2 :=
        length_maskSelect _ _ (by rw [h1 km (by simp), h2 km (by simp)])
      obtain ⟨delay, hr, hl, hv⟩ := ih (maskScatter d km.2 (maskSelect (w km.1) km.2))
        (by rw [length_maskScatter, hd]) (fun k hk => h1 k (by simp [hk]))
        (fun k hk => h2 k (by simp [hk]))
      refine ⟨delay, ?_, hl, ?_⟩
      · rw [List.foldlM_cons]
        simp only [delayStep, e1, if_true]
        exact hr
      · intro i hi
        rw [hv i hi, getElem?_maskScatter_select d (w km.1) km.2
          (by rw [h1 km (by simp), hd]) (by rw [h2 km (by simp), hd])]
        by_cases ht : ∃ km' ∈ t, km'.2[i]? = some true
        · have : ∃ km' ∈ km :: t, km'.2[i]? = some true := by
            obtain ⟨a, b, c⟩ := ht; exact ⟨a, by simp [b], c⟩
          rw [if_pos ht, if_pos this, lastValue, if_pos ht]
        · rw [if_neg ht]
          by_cases hk : km.2[i]? = some true
          · have : ∃ km' ∈ km :: t, km'.2[i]? = some true := ⟨km, by simp, hk⟩
            rw [if_pos hk, if_pos this, lastValue, if_neg ht, if_pos hk]
          · have : ¬ ∃ km' ∈ km :: t, km'.2[i]? = some true := by
              rintro ⟨a, b, c⟩
              rcases List.mem_cons.1 b with rfl | b
              · exact hk c
              · exact ht ⟨a, b, c⟩
            rw [if_neg hk, if_neg this]
  obtain ⟨delay, hr, hl, hv⟩ := key (sortedItems masks) (List.replicate n 0) (by simp) hl' hw'
  refine ⟨delay, hr, hl, fun i hi => ?_⟩
  rw [hv i hi]
  split
  · rfl
  · next hno =>
    have : ∀ items : List (String × Mask), (¬ ∃ km ∈ items, km.2[i]? = some true) →
        lastValue w i items = some 0 := by
      intro items
      induction items with
      | nil => intro _; rfl
      | cons a t ih =>
        intro h
        have h1 : ¬ ∃ km ∈ t, km.2[i]? = some true := fun ⟨x, hx, hx'⟩ => h ⟨x, by simp [hx], hx'⟩
        have h2 : ¬ a.2[i]? = some true := fun hx => h ⟨a, by simp, hx⟩
        rw [lastValue, if_neg h1, if_neg h2, ih h1]
    rw [this _ hno]; simp [hi]

/-- Partition: TOA `i` gets the waveform of its own selection at TOA `i`. -/
theorem C08_own_selection (n : Nat) (masks : Dict String Mask) (w : String → List K)
    (hp : IsPartition n masks) (hw : ∀ km ∈ masks, (w km.1).length = n) :
    ∃ delay, getDelay n masks (fun k m => maskSelect (w k) m) = .ok delay ∧ delay.length = n ∧
      ∀ i k m, i < n → (k, m) ∈ masks → InMask m i → delay[i]? = (w k)[i]? := by
  obtain ⟨delay, hr, hl, hv⟩ := C08_last_wins n masks w hp.keys_nodup hp.length_eq hw
  refine ⟨delay, hr, hl, fun i k m hi hkm hin => ?_⟩
  rw [hv i hi]
  have huniq := fun {a b} => (hp.exists_unique i hi).unique (y₁ := a) (y₂ := b)
  have : ∀ items : List (String × Mask), (∀ km ∈ items, km ∈ masks) → (k, m) ∈ items →
      items.Nodup → lastValue w i items = (w k)[i]? := by
    intro items
    induction items with
    | nil => intro _ h; simp at h
    | cons a t ih =>
      intro hs hmem hnd
      rw [List.nodup_cons] at hnd
      by_cases ht : ∃ km' ∈ t, km'.2[i]? = some true
      · rw [lastValue, if_pos ht]
        obtain ⟨b, hb, hb'⟩ := ht
        have hbk : b = (k, m) := huniq ⟨hs b (by simp [hb]), hb'⟩ ⟨hkm, hin⟩
        subst hbk
        exact ih (fun km h => hs km (by simp [h])) hb hnd.2
      · rcases List.mem_cons.1 hmem with h | h
        · subst h
          have hin' : m[i]? = some true := hin
          rw [lastValue, if_neg ht, if_pos hin']
        · exact absurd ⟨_, h, hin⟩ ht
  apply this
  · exact fun km h => (mem_sortedItems hp.keys_nodup km).1 h
  · exact (mem_sortedItems hp.keys_nodup _).2 hkm
  · exact (sortedItems_perm hp.keys_nodup).nodup_iff.2 (List.Nodup.of_map _ hp.keys_nodup)

/-- A waveform of the wrong length raises instead of being misplaced. -/
theorem C08_wrong_length_raises (n : Nat) (k : String) (m : Mask) (wf : String → Mask → List K)
    (h : (wf k m).length ≠ maskCount m) :
    getDelay n [(k, m)] wf = .error .valueError := by
  simp [getDelay, sortedItems, Dict.keys, Dict.get?, delayStep, h, bind, Except.bind]

end

example : getDelay 3 [("b", [true, true, false]), ("a", [false, true, false])]
    (fun k m => maskSelect (if k = "a" then [10, 20, 30] else [(1 : ℚ), 2, 3]) m)
      = .ok [1, 2, 0] := by decide +kernel

end Verif.WhiteNoise
