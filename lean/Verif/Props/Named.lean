import Verif.Model.Named
import Verif.Model.Standard
import Verif.Props.Sampling
import Verif.Props.Selections
import Verif.Props.Spectra
import Verif.Props.WhiteNoise

/-!
# C127: parameters act on the data their names say
-/

set_option linter.unusedSimpArgs false

namespace Verif.Named

open Verif Fun Params Selections

/-- The documented name: the parts that are not empty, with underscores between them. -/
def docName (parts : List String) : String := "_".intercalate (parts.filter fun s => decide (s ≠ ""))

/-- The user gives the number `x` for the parameter called `name`: in the dictionary of parameters, or else as the value of a
Constant. -/
def Gives (params : Dict String Py) (const : Option Py) (name : String) (x : ℝ) : Prop :=
  (Dict.get? params name).or const = some (.val (.obj x))

theorem join_cons (a : String) (l : List String) (hl : ∀ x ∈ l, x ≠ "") :
    "_".intercalate (a :: l) = if l = [] then a else a ++ "_" ++ "_".intercalate l := by
  cases l with
  | nil => simp
  | cons b t => simp [String.append_assoc]

theorem joinNames_doc (l : List String) : joinNames l = docName l := by
  induction l with
  | nil => simp [joinNames, docName]
  | cons a t ih =>
    rw [joinNames]
    by_cases ha : a = ""
    · rw [if_pos ha, ih]; simp [docName, ha]
    · rw [if_neg ha]
      have hf : (a :: t).filter (fun s => decide (s ≠ "")) = a :: t.filter fun s => decide (s ≠ "") := by
        simp [ha]
      have e : docName (a :: t) = if t.filter (fun s => decide (s ≠ "")) = [] then a else a ++ "_" ++ docName t := by
        unfold docName
        rw [hf, join_cons]
        intro x hx
        simpa using (List.mem_filter.1 hx).2
      rw [e]
      have : joinNames t = "" ↔ t.filter (fun s => decide (s ≠ "")) = [] := by
        rw [joinNames_ne, List.filter_eq_nil_iff]
        simp
      by_cases h : joinNames t = ""
      · rw [if_pos h, if_pos (this.1 h)]
      · rw [if_neg h, if_neg (fun h' => h (this.2 h')), ih]

theorem name_doc (psr sname key kw : String) : joinNames [joinNames [psr, sname, key], "", kw] = docName [psr, sname, key, kw] := by
  have := selName_eq psr sname key "" kw
  unfold selName at this
  rw [this, joinNames_doc]
  simp [docName, List.filter]

theorem parValue_gives {params : Dict String Py} {c : Option Py} {n : String} {x : ℝ} (h : Gives params c n x) :
    parValue ⟨n, c⟩ params = some (.val (.obj x)) := by
  unfold Gives at h
  unfold parValue
  cases hg : Dict.get? params n with
  | some v => rw [hg] at h; simpa using h
  | none => rw [hg] at h; simpa using h

/-- One evaluation of the EFAC function. -/
theorem efac_call (c : Option Py) (psr : Pulsar) (sname key : String) (params : Dict String Py) (errs : List ℝ)
    (ha : psr.attr "toaerrs" = some (.arr errs)) (x : ℝ) (h : Gives params c (docName [psr.name, sname, key, "efac"]) x) :
    (selected (efacFn (.parClass c)) psr sname key).call [] [] params = .ok (.val (.arr (WhiteNoise.efacNdiag errs x))) := by
  rw [← name_doc] at h
  have hv := parValue_gives h
  simp [selected, efacFn, FnC.make, ItemsC.make, ItemC.make, Fn.call, Items.augment, Items.params, Item.params, Items.defaults,
    Dict.get?, Dict.set, Dict.update, hv, setOpt, addPsr, allowed, Items.keys, wrap, psrOf, maskOf, Py.val?, selectionCall, appended,
    ha, maskAttr, bindCall, arr, num, bind, Except.bind]

theorem combined_call (c d : Option Py) (psr : Pulsar) (sname key : String) (params : Dict String Py) (errs : List ℝ)
    (ha : psr.attr "toaerrs" = some (.arr errs)) (x q : ℝ) (h : Gives params c (docName [psr.name, sname, key, "efac"]) x)
    (h' : Gives params d (docName [psr.name, sname, key, "log10_t2equad"]) q) :
    (selected (combinedFn (.parClass c) (.parClass d)) psr sname key).call [] [] params =
      .ok (.val (.arr (WhiteNoise.combinedNdiag errs x q))) := by
  rw [← name_doc] at h h'
  have hv := parValue_gives h
  have hv' := parValue_gives h'
  simp [selected, combinedFn, FnC.make, ItemsC.make, ItemC.make, Fn.call, Items.augment, Items.params, Item.params, Items.defaults,
    Dict.get?, Dict.set, Dict.update, hv, hv', setOpt, addPsr, allowed, Items.keys, wrap, psrOf, maskOf, Py.val?, selectionCall, appended,
    ha, maskAttr, bindCall, arr, num, bind, Except.bind]

theorem tnequad_call (c : Option Py) (psr : Pulsar) (sname key : String) (params : Dict String Py) (toas : List ℝ)
    (ha : psr.attr "toas" = some (.arr toas)) (x : ℝ) (h : Gives params c (docName [psr.name, sname, key, "log10_tnequad"]) x) :
    (selected (tnequadFn (.parClass c)) psr sname key).call [] [] params = .ok (.val (.arr (WhiteNoise.tnequadNdiag toas x))) := by
  rw [← name_doc] at h
  have hv := parValue_gives h
  simp [selected, tnequadFn, FnC.make, ItemsC.make, ItemC.make, Fn.call, Items.augment, Items.params, Item.params, Items.defaults,
    Dict.get?, Dict.set, Dict.update, hv, setOpt, addPsr, allowed, Items.keys, wrap, psrOf, maskOf, Py.val?, selectionCall, appended,
    ha, maskAttr, bindCall, arr, num, bind, Except.bind]

theorem powerlaw_call (f : Fn Py) (c d : Option Py) (name : String) (psr : Option (String → Option (Val ℝ)))
    (hf : f = (powerlawFn (.parClass c) (.parClass d)).make name (psr.map .psr)) (hpsr : ∀ a, psr = some a → a "components" = none)
    (labels : List ℝ) (params : Dict String Py) (A γ : ℝ) (h : Gives params c (joinNames [name, "", "log10_A"]) A)
    (h' : Gives params d (joinNames [name, "", "gamma"]) γ) :
    f.call [.val (.arr labels)] [] params = (Spectra.powerlaw labels A γ 2).map fun r => .val (.arr r) := by
  subst hf
  have hv := parValue_gives h
  have hv' := parValue_gives h'
  cases psr with
  | none =>
    simp [powerlawFn, FnC.make, ItemsC.make, ItemC.make, Fn.call, Items.augment, Items.params, Item.params, Items.defaults,
      Dict.get?, Dict.set, Dict.update, hv, hv', setOpt, addPsr, allowed, Items.keys, wrap, psrOf, maskOf, Py.val?, selectionCall,
      bindCall, arr, num, bind, Except.bind, Except.map]
  | some a =>
    have ha := hpsr a rfl
    simp [powerlawFn, FnC.make, ItemsC.make, ItemC.make, Fn.call, Items.augment, Items.params, Item.params, Items.defaults,
      Dict.get?, Dict.set, Dict.update, hv, hv', setOpt, addPsr, allowed, Items.keys, wrap, psrOf, maskOf, Py.val?, selectionCall,
      appended, ha, bindCall, arr, num, bind, Except.bind, Except.map]

/-- The loop over the selection is the sum of the masked arrays. -/
theorem ndiag_eq (f : FnC Py) (psr : Pulsar) (sname : String) (n : Nat) (masks : Dict String Mask) (params : Dict String Py)
    (v : String → List ℝ) (hp : IsPartition n masks) (hl : ∀ km ∈ masks, (v km.1).length = n)
    (hc : ∀ km ∈ masks, (selected f psr sname km.1).call [] [] params = .ok (.val (.arr (v km.1)))) :
    ndiag f psr sname n masks params = .ok (WhiteNoise.getNdiag n masks v) := by
  unfold ndiag WhiteNoise.getNdiag
  have hm : ∀ km ∈ WhiteNoise.sortedItems masks, km ∈ masks := fun km h => (WhiteNoise.mem_sortedItems hp.keys_nodup km).1 h
  generalize WhiteNoise.sortedItems masks = l at hm
  generalize List.replicate n (0 : ℝ) = z
  induction l generalizing z with
  | nil => rfl
  | cons km t ih =>
    have hk := hm km (by simp)
    rw [List.foldlM_cons, List.foldl_cons]
    have : ndiagLoop f psr sname params z km = .ok (WhiteNoise.ndiagStep v z km) := by
      unfold ndiagLoop
      rw [hc km hk]
      simp only
      rw [if_pos (by rw [hl km hk, hp.length_eq km hk])]
      rfl
    rw [this]
    exact ih (fun km h => hm km (by simp [h])) _

/-- C127: `MeasurementNoise(efac, log10_t2equad)` gives every TOA the variance `efac² (σ² + 10^(2 log10_t2equad))` with the values
that the user gives under the name of the pulsar, the name of the signal if it has one, the key of the TOA's own selection if it is
not empty, and the name of the parameter.  Without `log10_t2equad` it gives `efac² σ²`.  These are the noise matrices of the model
of a whole pulsar (C109, C116). -/
theorem C127_measurement (psr : Pulsar) (sname : String) (errs : List ℝ) (ha : psr.attr "toaerrs" = some (.arr errs))
    (masks : Dict String Mask) (hp : IsPartition errs.length masks) (params : Dict String Py) (c d : Option Py) (efac q : String → ℝ)
    (he : ∀ km ∈ masks, Gives params c (docName [psr.name, sname, km.1, "efac"]) (efac km.1))
    (hq : ∀ km ∈ masks, Gives params d (docName [psr.name, sname, km.1, "log10_t2equad"]) (q km.1)) :
    (∃ r, ndiag (measurementFn (.parClass c) (some (.parClass d))) psr sname errs.length masks params = .ok r ∧
      r.length = errs.length ∧
      (∀ i e k m, errs[i]? = some e → (k, m) ∈ masks → InMask m i → r[i]? = some (efac k ^ 2 * (e ^ 2 + (10 : ℝ) ^ (2 * q k)))) ∧
      ∀ n, Standard.measurement errs masks efac q n = .base (.arr fun i => r.getD i 0)) ∧
    ∃ r, ndiag (measurementFn (.parClass c) none) psr sname errs.length masks params = .ok r ∧ r.length = errs.length ∧
      (∀ i e k m, errs[i]? = some e → (k, m) ∈ masks → InMask m i → r[i]? = some ((efac k * e) ^ 2)) ∧
      ∀ n, Standard.efacNoise errs masks efac n = .base (.arr fun i => r.getD i 0) := by
  constructor
  · refine ⟨_, ndiag_eq _ psr sname _ masks params (fun k => WhiteNoise.combinedNdiag errs (efac k) (q k)) hp
      (fun km _ => by simp [WhiteNoise.combinedNdiag])
      (fun km h => combined_call c d psr sname km.1 params errs ha _ _ (he km h) (hq km h)), ?_, ?_, fun n => rfl⟩
    · exact (WhiteNoise.C07_sum _ _ _ hp.keys_nodup hp.length_eq (fun km _ => by simp [WhiteNoise.combinedNdiag])).1
    · intro i e k m hi hkm hin
      exact WhiteNoise.C07_measurement_noise masks errs efac q hp i e hi k m hkm hin
  · refine ⟨_, ndiag_eq _ psr sname _ masks params (fun k => WhiteNoise.efacNdiag errs (efac k)) hp
      (fun km _ => by simp [WhiteNoise.efacNdiag])
      (fun km h => efac_call c psr sname km.1 params errs ha _ (he km h)), ?_, ?_, fun n => rfl⟩
    · exact (WhiteNoise.C07_sum _ _ _ hp.keys_nodup hp.length_eq (fun km _ => by simp [WhiteNoise.efacNdiag])).1
    · intro i e k m hi hkm hin
      exact WhiteNoise.C07_efac masks errs efac hp i e hi k m hkm hin

/-- C127: the same for `TNEquadNoise(log10_tnequad)`, which gives every TOA the variance `10^(2 log10_tnequad)`. -/
theorem C127_tnequad (psr : Pulsar) (sname : String) (toas : List ℝ) (ha : psr.attr "toas" = some (.arr toas))
    (masks : Dict String Mask) (hp : IsPartition toas.length masks) (params : Dict String Py) (c : Option Py) (q : String → ℝ)
    (hq : ∀ km ∈ masks, Gives params c (docName [psr.name, sname, km.1, "log10_tnequad"]) (q km.1)) :
    ∃ r, ndiag (tnequadFn (.parClass c)) psr sname toas.length masks params = .ok r ∧ r.length = toas.length ∧
      (∀ i k m, i < toas.length → (k, m) ∈ masks → InMask m i → r[i]? = some (((10 : ℝ) ^ q k) ^ 2)) ∧
      ∀ n, Standard.tnequad toas masks q n = .base (.arr fun i => r.getD i 0) := by
  refine ⟨_, ndiag_eq _ psr sname _ masks params (fun k => WhiteNoise.tnequadNdiag toas (q k)) hp
    (fun km _ => by simp [WhiteNoise.tnequadNdiag])
    (fun km h => tnequad_call c psr sname km.1 params toas ha _ (hq km h)), ?_, ?_, fun n => rfl⟩
  · exact (WhiteNoise.C07_sum _ _ _ hp.keys_nodup hp.length_eq (fun km _ => by simp [WhiteNoise.tnequadNdiag])).1
  · intro i k m hi hkm hin
    exact WhiteNoise.C07_tnequad masks toas q hp i hi k m hkm hin

/-- C127: with one EFAC and EQUAD for each backend, the variance of a TOA is made of the values given under
`<pulsar>_<its backend>_efac` and `<pulsar>_<its backend>_log10_t2equad`. -/
theorem C127_backends (psr : Pulsar) (hpsr : psr.name ≠ "") (errs : List ℝ) (ha : psr.attr "toaerrs" = some (.arr errs))
    (flags : List String) (hf : flags.length = errs.length) (hne : ∀ b ∈ flags, b ≠ "") (params : Dict String Py) (c d : Option Py)
    (efac q : String → ℝ) (he : ∀ b ∈ flags, Gives params c (psr.name ++ "_" ++ b ++ "_efac") (efac b))
    (hq : ∀ b ∈ flags, Gives params d (psr.name ++ "_" ++ b ++ "_log10_t2equad") (q b)) :
    ∃ r, ndiag (measurementFn (.parClass c) (some (.parClass d))) psr "" errs.length (byBackend flags) params = .ok r ∧
      r.length = errs.length ∧
      ∀ (i : Nat) (e : ℝ) (b : String), errs[i]? = some e → flags[i]? = some b → r[i]? = some (efac b ^ 2 * (e ^ 2 + (10 : ℝ) ^ (2 * q b))) := by
  obtain ⟨hpart, hkeys, -⟩ := C01_by_backend flags
  rw [hf] at hpart
  have hmem : ∀ km ∈ byBackend flags, km.1 ∈ flags := by
    intro km hkm
    obtain ⟨⟨i, hi⟩, hiff⟩ := hkeys km.1 km.2 hkm
    exact List.mem_of_getElem? ((hiff i).1 hi)
  have hname : ∀ b ∈ flags, ∀ kw, kw ≠ "" → docName [psr.name, "", b, kw] = psr.name ++ "_" ++ b ++ ("_" ++ kw) := by
    intro b hb kw hkw
    simp [docName, hpsr, hne b hb, hkw, String.append_assoc]
  obtain ⟨⟨r, hr, hl, hv, -⟩, -⟩ := C127_measurement psr "" errs ha _ hpart params c d efac q
    (fun km h => by rw [hname _ (hmem km h) _ (by decide)]; exact he _ (hmem km h))
    (fun km h => by rw [hname _ (hmem km h) _ (by decide)]; exact hq _ (hmem km h))
  refine ⟨r, hr, hl, fun i e b hi hb => ?_⟩
  obtain ⟨km, ⟨hkm, hin⟩, -⟩ := hpart.exists_unique i (List.getElem?_eq_some_iff.1 hi).1
  have hb' := ((hkeys km.1 km.2 hkm).2 i).1 hin
  rw [hb] at hb'
  cases hb'
  exact hv i e km.1 km.2 hi hkm hin

/-- The values of a power law at the frequencies `g`, two columns for each: density times bin width. -/
def IsPowerlaw (g : List ℝ) (A γ : ℝ) (p : Except PyErr Py) : Prop :=
  ∃ w : List ℝ, p = .ok (.val (.arr (Bases.rep 2 w))) ∧ w.length = g.length ∧
    ∀ (j : Nat) (x : ℝ), g[j]? = some x →
      w[j]? = some (((10 : ℝ) ^ A) ^ 2 / (12 * Real.pi ^ 2) * Spectra.yearly ^ (γ - 3) * x ^ (-γ) * Spectra.bin g j)

/-- C127: the prior of a power-law process uses, for each selection, the amplitude and slope given under the name of the pulsar, of
the signal and of the key; that of a common process uses those given under the name of the signal alone, for every pulsar. -/
theorem C127_powerlaw (psr : Pulsar) (hattr : psr.attr "components" = none) (sname key : String) (g : List ℝ)
    (hg : Spectra.Ascending g) (params : Dict String Py) (c d : Option Py) (A γ : ℝ) :
    (Gives params c (docName [psr.name, sname, key, "log10_A"]) A → Gives params d (docName [psr.name, sname, key, "gamma"]) γ →
      IsPowerlaw g A γ (prior (powerlawFn (.parClass c) (.parClass d)) psr sname key (Bases.rep 2 g) params)) ∧
    (Gives params c (docName [sname, "log10_A"]) A → Gives params d (docName [sname, "gamma"]) γ →
      IsPowerlaw g A γ (commonPrior (powerlawFn (.parClass c) (.parClass d)) sname (Bases.rep 2 g) params)) := by
  obtain ⟨w, hw, hl, -, hv⟩ := Spectra.C66_powerlaw A γ 2 (by norm_num) g hg
  simp only at hw
  constructor
  · intro h h'
    rw [← name_doc] at h h'
    refine ⟨w, ?_, hl, hv⟩
    have := powerlaw_call _ c d _ (some psr.attr) rfl (by rintro a ⟨⟩; exact hattr) (Bases.rep 2 g) params A γ h h'
    rw [hw] at this
    exact this
  · intro h h'
    have e : ∀ kw, joinNames [sname, "", kw] = docName [sname, kw] := by
      intro kw; rw [joinNames_doc]; simp [docName, List.filter]
    rw [← e] at h h'
    refine ⟨w, ?_, hl, hv⟩
    have := powerlaw_call _ c d _ none rfl (by rintro a ⟨⟩) (Bases.rep 2 g) params A γ h h'
    rw [hw] at this
    exact this

/-- C127: a change of the values of other selections does not matter: if two dictionaries differ only under the name of the EFAC of
the key `k'`, every TOA of another key has the same variance in both. -/
theorem C127_local (psr : Pulsar) (hpsr : psr.name ≠ "") (sname : String) (errs : List ℝ) (ha : psr.attr "toaerrs" = some (.arr errs))
    (masks : Dict String Mask) (hp : IsPartition errs.length masks) (params params' : Dict String Py) (c d : Option Py)
    (efac efac' q q' : String → ℝ)
    (he : ∀ km ∈ masks, Gives params c (docName [psr.name, sname, km.1, "efac"]) (efac km.1))
    (hq : ∀ km ∈ masks, Gives params d (docName [psr.name, sname, km.1, "log10_t2equad"]) (q km.1))
    (he' : ∀ km ∈ masks, Gives params' c (docName [psr.name, sname, km.1, "efac"]) (efac' km.1))
    (hq' : ∀ km ∈ masks, Gives params' d (docName [psr.name, sname, km.1, "log10_t2equad"]) (q' km.1))
    (k' : String) (hd : ∀ n, n ≠ docName [psr.name, sname, k', "efac"] → Dict.get? params n = Dict.get? params' n) :
    ∃ r r', ndiag (measurementFn (.parClass c) (some (.parClass d))) psr sname errs.length masks params = .ok r ∧
      ndiag (measurementFn (.parClass c) (some (.parClass d))) psr sname errs.length masks params' = .ok r' ∧
      ∀ (i : Nat) (k : String) (m : Mask), (k, m) ∈ masks → InMask m i → k ≠ k' → r[i]? = r'[i]? := by
  obtain ⟨⟨r, hr, hl, hv, -⟩, -⟩ := C127_measurement psr sname errs ha masks hp params c d efac q he hq
  obtain ⟨⟨r', hr', hl', hv', -⟩, -⟩ := C127_measurement psr sname errs ha masks hp params' c d efac' q' he' hq'
  refine ⟨r, r', hr, hr', fun i k m hkm hin hk => ?_⟩
  have n1 : docName [psr.name, sname, k, "efac"] ≠ docName [psr.name, sname, k', "efac"] := by
    rw [← name_doc, ← name_doc]
    exact fun h => hk ((C43_function_names psr.name sname "" "efac" k k' hpsr (by decide)).1 h)
  have n2 : docName [psr.name, sname, k, "log10_t2equad"] ≠ docName [psr.name, sname, k', "efac"] := by
    rw [← name_doc, ← name_doc]
    have e : ∀ s : String, s ≠ "" → joinNames ["", s] = s := by
      intro s hs; simp [joinNames, hs]
    apply C43_keywords_partial psr.name sname "" "log10_t2equad" "efac" k k' hpsr (by decide) (by decide)
    · rw [e _ (by decide), e _ (by decide)]; decide
    · intro x h
      rw [e _ (by decide), e _ (by decide)] at h
      have := congrArg (fun s : String => s.toList.getLast?) h
      simp [String.toList_append] at this
    · intro x h
      rw [e _ (by decide), e _ (by decide)] at h
      have := congrArg (fun s : String => s.toList.getLast?) h
      simp [String.toList_append] at this
  have hlt : i < errs.length := by
    rw [← hp.length_eq _ hkm]
    exact (List.getElem?_eq_some_iff.1 hin).1
  have e1 : efac k = efac' k := by
    have h1 := he _ hkm
    have h2 := he' _ hkm
    unfold Gives at h1 h2
    rw [hd _ n1, h2] at h1
    simpa using h1.symm
  have e2 : q k = q' k := by
    have h1 := hq _ hkm
    have h2 := hq' _ hkm
    unfold Gives at h1 h2
    rw [hd _ n2, h2] at h1
    simpa using h1.symm
  rw [hv i errs[i] k m (List.getElem?_eq_getElem hlt) hkm hin, hv' i errs[i] k m (List.getElem?_eq_getElem hlt) hkm hin, e1, e2]

/-- The key under which `EcorrKernelNoise` keeps the parameter of a selection. -/
theorem ecorr_get (psr sname : String) (c : Option Py) (masks : Dict String Mask) (km : String × Mask) (h : km ∈ masks) :
    Dict.get? (ecorrParams psr sname c masks) (if km.1 = "" then "log10_ecorr" else km.1 ++ "_log10_ecorr") =
      some ⟨selectionName psr km.1 "log10_ecorr", c⟩ := by
  have inj : ∀ a b : String, (if a = "" then "log10_ecorr" else a ++ "_log10_ecorr") =
      (if b = "" then "log10_ecorr" else b ++ "_log10_ecorr") → a = b := by
    intro a b h
    by_cases ha : a = "" <;> by_cases hb : b = "" <;> simp only [ha, hb, if_true, if_false] at h ⊢
    · have := congrArg String.length h
      simp at this
      have e : "log10_ecorr".length = 11 := by decide
      have e' : "_log10_ecorr".length = 12 := by decide
      omega
    · have := congrArg String.length h
      simp at this
      have e : "log10_ecorr".length = 11 := by decide
      have e' : "_log10_ecorr".length = 12 := by decide
      omega
    · exact (String.append_left_inj _).1 h
  unfold ecorrParams
  have key : ∀ (l : Dict String Mask) (acc : Dict String (ParRef Py)),
      (km ∈ l ∨ Dict.get? acc (if km.1 = "" then "log10_ecorr" else km.1 ++ "_log10_ecorr") =
        some ⟨selectionName psr km.1 "log10_ecorr", c⟩) →
      Dict.get? (l.foldl (fun d km => Dict.set d (if km.1 = "" then "log10_ecorr" else km.1 ++ "_log10_ecorr")
        ⟨selectionName psr km.1 "log10_ecorr", c⟩) acc) (if km.1 = "" then "log10_ecorr" else km.1 ++ "_log10_ecorr") =
        some ⟨selectionName psr km.1 "log10_ecorr", c⟩ := by
    intro l
    induction l with
    | nil => intro acc h; simpa using h
    | cons a t ih =>
      intro acc h
      rw [List.foldl_cons]
      apply ih
      by_cases e : a.1 = km.1
      · right; rw [e, Dict.get?_set_self]
      · rcases h with h | h
        · rcases List.mem_cons.1 h with h | h
          · exact absurd (by rw [h]) e
          · exact Or.inl h
        · right
          rw [Dict.get?_set_ne]
          · exact h
          · intro h'; exact e (inj _ _ h')
  exact key masks [] (Or.inl h)

/-- C127: `EcorrKernelNoise` uses for each selection the value given under `<pulsar>_<key>_log10_ecorr`, whatever its own name, and
raises if there is none. -/
theorem C127_ecorr (psr sname : String) (hpsr : psr ≠ "") (c : Option Py) (masks : Dict String Mask) (km : String × Mask)
    (hkm : km ∈ masks) (params : Dict String Py) :
    (∀ x, Gives params c (docName [psr, km.1, "log10_ecorr"]) x → ecorrAmp psr sname c masks km.1 params = .ok ((10 : ℝ) ^ (2 * x))) ∧
    (Dict.get? params (docName [psr, km.1, "log10_ecorr"]) = none → c = none →
      ecorrAmp psr sname c masks km.1 params = .error .attributeError) := by
  have e : docName [psr, km.1, "log10_ecorr"] = selectionName psr km.1 "log10_ecorr" := by
    unfold selectionName
    by_cases h : km.1 = "" <;> simp [docName, hpsr, h, String.append_assoc]
  constructor
  · intro x h
    unfold ecorrAmp getPar
    rw [ecorr_get psr sname c masks km hkm]
    unfold Gives at h
    rw [e] at h
    simp only
    cases hg : Dict.get? params (selectionName psr km.1 "log10_ecorr") with
    | some v => rw [hg] at h; simp at h; rw [h]
    | none => rw [hg] at h; simp at h; rw [h]
  · intro h hc
    unfold ecorrAmp getPar
    rw [ecorr_get psr sname c masks km hkm]
    rw [e] at h
    simp only [h, hc]

/-- C127: in signals made from a Function, two signals of one pulsar with different names have different parameters for the same
key. -/
theorem C127_apart (psr s s' key kw : String) (hkw : kw ≠ "") (h : docName [psr, s, key, kw] = docName [psr, s', key, kw]) : s = s' := by
  have e : ∀ s, docName [psr, s, key, kw] =
      (if psr = "" then "" else psr ++ "_") ++ ((if s = "" then "" else s ++ "_") ++ ((if key = "" then "" else key ++ "_") ++ kw)) := by
    intro s
    by_cases h1 : psr = "" <;> by_cases h2 : s = "" <;> by_cases h3 : key = "" <;>
      simp [docName, h1, h2, h3, hkw, String.append_assoc]
  rw [e, e] at h
  have h := (String.append_left_inj _).1 ((String.append_right_inj _).1 h)
  have e1 : "_".length = 1 := by decide
  by_cases h1 : s = "" <;> by_cases h2 : s' = "" <;> simp only [h1, h2, if_true, if_false] at h ⊢
  · have := congrArg String.length h
    rw [String.length_append, e1] at this
    simp at this
  · have := congrArg String.length h
    rw [String.length_append, e1] at this
    simp at this
  · exact (String.append_left_inj _).1 h

/-- C127, name: `EcorrKernelNoise` does not use its name: two of them with different names on one pulsar can share parameters. -/
theorem C127_ecorr_name_false :
    ¬ ∀ (psr s s' : String) (masks : Dict String Mask), s ≠ s' →
      ∀ p ∈ Dict.values (ecorrParams psr s none masks), p.name ∉ (Dict.values (ecorrParams psr s' none masks)).map ParRef.name := by
  intro h
  have := h "J1909-3744" "a" "b" [("ASP", [true])] (by decide) ⟨"J1909-3744_ASP_log10_ecorr", none⟩
    (by simp [ecorrParams, Dict.set, Dict.values, selectionName])
  exact this (by simp [ecorrParams, Dict.set, Dict.values, selectionName])

/-- C127, missing values: without a value for `efac` and `log10_t2equad` nothing is raised; the defaults of the Python functions, 1
and -8, are used. -/
theorem C127_missing_false (psr : Pulsar) (sname : String) (errs : List ℝ) (ha : psr.attr "toaerrs" = some (.arr errs))
    (h1 : psr.attr "efac" = none) (h2 : psr.attr "log10_t2equad" = none) (masks : Dict String Mask) (hp : IsPartition errs.length masks) :
    ∃ r, ndiag (measurementFn (.parClass none) (some (.parClass none))) psr sname errs.length masks [] = .ok r ∧
      ∀ (i : Nat) (e : ℝ), errs[i]? = some e → r[i]? = some (e ^ 2 + (10 : ℝ) ^ (-16 : ℝ)) := by
  refine ⟨_, ndiag_eq _ psr sname _ masks [] (fun k => WhiteNoise.combinedNdiag errs 1 (-8)) hp
    (fun km _ => by simp [WhiteNoise.combinedNdiag]) (fun km h => ?_), ?_⟩
  · simp [selected, measurementFn, combinedFn, FnC.make, ItemsC.make, ItemC.make, Fn.call, Items.augment, Items.params, Item.params,
      Items.defaults, Dict.get?, Dict.set, Dict.update, parValue, setOpt, addPsr, allowed, Items.keys, wrap, psrOf, maskOf, Py.val?,
      selectionCall, appended, ha, h1, h2, maskAttr, bindCall, arr, num, bind, Except.bind]
  · intro i e hi
    obtain ⟨km, ⟨hkm, hin⟩, -⟩ := hp.exists_unique i (List.getElem?_eq_some_iff.1 hi).1
    rw [WhiteNoise.C07_measurement_noise masks errs (fun _ => 1) (fun _ => -8) hp i e hi km.1 km.2 hkm hin]
    norm_num

/-! ## Waveforms -/

/-- What the user gives for a keyword whose parameter, if it is made from a class, is called `name`: the value of that parameter, the value of a
parameter with a name of its own, or a number. -/
def ItemGives (params : Dict String Py) (name : String) (x : ℝ) : ItemC Py → Prop
  | .parClass c => Gives params c name x
  | .par p => Gives params p.const p.name x
  | .val v => v = .val (.obj x)
  | _ => False

theorem wave_doc (psr sname key fname kw : String) : joinNames [joinNames [psr, sname, key], fname, kw] = docName [psr, sname, key, fname, kw] := by
  have := selName_eq psr sname key fname kw
  unfold selName at this
  rw [this, joinNames_doc]

theorem wave_call (w : List ℝ → ℝ → List ℝ) (fname name : String) (it : ItemC Py) (attr : String → Option (Val ℝ)) (toas : List ℝ)
    (ha : attr "toas" = some (.arr toas)) (mask : Option Mask) (hm : ∀ m, mask = some m → m.length = toas.length) (params : Dict String Py) (x : ℝ)
    (h : ItemGives params (joinNames [name, fname, "x"]) x it) :
    ((waveFn w fname it).make name (some (.psr attr))).call [] (mask.toList.map fun m => ("mask", .mask m)) params =
      .ok (.val (.arr (w ((mask.map (applyMask toas)).getD toas) x))) := by
  cases mask with
  | none =>
    cases it with
    | parClass c =>
      have hv := parValue_gives h
      simp [waveFn, FnC.make, ItemsC.make, ItemC.make, Fn.call, Items.augment, Items.params, Item.params, Items.defaults, Dict.get?, Dict.set,
        Dict.update, hv, setOpt, addPsr, allowed, Items.keys, wrap, psrOf, maskOf, Py.val?, selectionCall, appended, ha, maskAttr, bindCall, arr,
        num, bind, Except.bind]
    | par p =>
      have hv := parValue_gives (n := p.name) (c := p.const) h
      simp [waveFn, FnC.make, ItemsC.make, ItemC.make, Fn.call, Items.augment, Items.params, Item.params, Items.defaults, Dict.get?, Dict.set,
        Dict.update, hv, setOpt, addPsr, allowed, Items.keys, wrap, psrOf, maskOf, Py.val?, selectionCall, appended, ha, maskAttr, bindCall, arr,
        num, bind, Except.bind]
    | val v =>
      cases h
      simp [waveFn, FnC.make, ItemsC.make, ItemC.make, Fn.call, Items.augment, Items.params, Item.params, Items.defaults, Dict.get?, Dict.set,
        Dict.update, setOpt, addPsr, allowed, Items.keys, wrap, psrOf, maskOf, Py.val?, selectionCall, appended, ha, maskAttr, bindCall, arr,
        num, bind, Except.bind]
    | fnClass f => cases h
    | fn f => cases h
  | some m =>
    have hl := hm m rfl
    cases it with
    | parClass c =>
      have hv := parValue_gives h
      simp [waveFn, FnC.make, ItemsC.make, ItemC.make, Fn.call, Items.augment, Items.params, Item.params, Items.defaults, Dict.get?, Dict.set,
        Dict.update, hv, setOpt, addPsr, allowed, Items.keys, wrap, psrOf, maskOf, Py.val?, selectionCall, appended, ha, maskAttr, bindCall, arr,
        num, bind, Except.bind, hl]
    | par p =>
      have hv := parValue_gives (n := p.name) (c := p.const) h
      simp [waveFn, FnC.make, ItemsC.make, ItemC.make, Fn.call, Items.augment, Items.params, Item.params, Items.defaults, Dict.get?, Dict.set,
        Dict.update, hv, setOpt, addPsr, allowed, Items.keys, wrap, psrOf, maskOf, Py.val?, selectionCall, appended, ha, maskAttr, bindCall, arr,
        num, bind, Except.bind, hl]
    | val v =>
      cases h
      simp [waveFn, FnC.make, ItemsC.make, ItemC.make, Fn.call, Items.augment, Items.params, Item.params, Items.defaults, Dict.get?, Dict.set,
        Dict.update, setOpt, addPsr, allowed, Items.keys, wrap, psrOf, maskOf, Py.val?, selectionCall, appended, ha, maskAttr, bindCall, arr,
        num, bind, Except.bind, hl]
    | fnClass f => cases h
    | fn f => cases h

theorem applyMask_map (f : ℝ → ℝ) (l : List ℝ) (m : Mask) : (applyMask l m).map f = maskSelect (l.map f) m := by
  induction l generalizing m with
  | nil => simp [applyMask, maskSelect]
  | cons a t ih =>
    cases m with
    | nil => simp [applyMask, maskSelect]
    | cons b m =>
      have := ih m
      unfold applyMask at this ⊢
      cases b <;> simp [maskSelect, this]

/-- C127: a `Deterministic` signal delays every TOA by the waveform at its time, with the value that the user gives under the name of the pulsar,
of the signal, of the TOA's own selection, of the Function and of the argument, as far as they are not empty; or under the name of the parameter
if it was given one. -/
theorem C127_delay (psr : Pulsar) (sname fname : String) (toas : List ℝ) (ha : psr.attr "toas" = some (.arr toas)) (masks : Dict String Mask)
    (hp : IsPartition toas.length masks) (params : Dict String Py) (it : ItemC Py) (x : String → ℝ)
    (hx : ∀ km ∈ masks, ItemGives params (docName [psr.name, sname, km.1, fname, "x"]) (x km.1) it) (w : ℝ → ℝ → ℝ) :
    ∃ r, delay (waveFn (fun t y => t.map (w y)) fname it) psr sname toas.length masks params = .ok r ∧ r.length = toas.length ∧
      ∀ i t k m, toas[i]? = some t → (k, m) ∈ masks → InMask m i → r[i]? = some (w (x k) t) := by
  obtain ⟨r, h1, h2, h3⟩ := WhiteNoise.C08_own_selection toas.length masks (fun k => toas.map (w (x k))) hp (fun _ _ => by simp)
  refine ⟨r, ?_, h2, fun i t k m hi hkm hin => ?_⟩
  · rw [← h1]
    unfold delay WhiteNoise.getDelay
    have key : ∀ (items : List (String × Mask)) (d : List ℝ), (∀ km ∈ items, km ∈ masks) →
        items.foldlM (delayLoop (waveFn (fun t y => t.map (w y)) fname it) psr sname params) d =
          items.foldlM (WhiteNoise.delayStep fun k m => maskSelect (toas.map (w (x k))) m) d := by
      intro items
      induction items with
      | nil => intro d _; rfl
      | cons km t ih =>
        intro d hmem
        have hkm := hmem km (by simp)
        have hc := wave_call (fun t y => t.map (w y)) fname (joinNames [psr.name, sname, km.1]) it psr.attr toas ha (some km.2)
          (fun m hm => by cases hm; exact hp.length_eq km hkm) params (x km.1) (by rw [wave_doc]; exact hx km hkm)
        simp only [Option.toList_some, List.map_cons, List.map_nil, Option.map_some, Option.getD_some, applyMask_map] at hc
        have e : delayLoop (waveFn (fun t y => t.map (w y)) fname it) psr sname params d km =
            WhiteNoise.delayStep (fun k m => maskSelect (toas.map (w (x k))) m) d km := by
          unfold delayLoop selected
          rw [hc]
          rfl
        simp only [List.foldlM_cons, e]
        cases WhiteNoise.delayStep (fun k m => maskSelect (toas.map (w (x k))) m) d km with
        | error e => rfl
        | ok d' => exact ih d' fun km h => hmem km (by simp [h])
    refine key _ _ fun km h => (WhiteNoise.mem_sortedItems hp.keys_nodup km).1 h
  · have hlt : i < toas.length := (List.getElem?_eq_some_iff.1 hi).1
    rw [h3 i k m hlt hkm hin, List.getElem?_map, hi]
    rfl

/-- C127: a keyword of a Function that is given a Function class gets the value of that Function for the same pulsar, with all its TOAs; its parameters
are called by the names of the outer Function, of the keyword, of the inner Function and of its argument, as far as they are not empty. -/
theorem C127_nested (psr : Pulsar) (name fname kw fname' : String) (hkw : kw ≠ "psr") (hkx : kw ≠ "x") (toas : List ℝ)
    (ha : psr.attr "toas" = some (.arr toas)) (params : Dict String Py) (c : Option Py) (x : ℝ)
    (hx : Gives params c (docName [name, fname, kw, fname', "x"]) x) (w : List ℝ → ℝ → List ℝ) (body : Body Py) (fargs : List String) :
    ((FnC.mk body fargs fname (.cons kw (.fnClass (waveFn w fname' (.parClass c))) .nil)).make name (some (.psr psr.attr))).call [] [] params =
      body [] [(kw, .val (.arr (w toas x))), ("psr", .psr psr.attr)] := by
  have hc := wave_call w fname' (joinNames [name, fname, kw]) (.parClass c) psr.attr toas ha none (by simp) params x
    (by show Gives _ _ _ _; rw [wave_doc]; exact hx)
  simp only [Option.toList_none, List.map_nil, Option.map_none, Option.getD_none] at hc
  have hk : Dict.get? ([("x", (⟨joinNames [joinNames [name, fname, kw], fname', "x"], c⟩ : ParRef Py))] : Dict String (ParRef Py)) kw = none := by
    simp [Dict.get?, Ne.symm hkx]
  simp only [FnC.make, ItemsC.make, ItemC.make, Fn.call, Items.augment, Items.params, Item.params, Items.defaults, Dict.update]
  have hpar : ((waveFn w fname' (.parClass c)).make (joinNames [name, fname, kw]) (some (.psr psr.attr))).params =
      [("x", ⟨joinNames [joinNames [name, fname, kw], fname', "x"], c⟩)] := by
    simp [waveFn, FnC.make, ItemsC.make, ItemC.make, Fn.params, Items.params, Item.params, Dict.set]
  simp [hpar, Dict.get?, Ne.symm hkx, Item.eval, hc, setOpt, Dict.set, addPsr, allowed, Items.keys, hkw, Dict.update]

/-! ## A case -/

/-- A pulsar with three TOAs of two backends. -/
noncomputable def exPsr : Pulsar where
  name := "J1909-3744"
  attr := fun a => if a = "toaerrs" then some (.arr [1, 2, 3]) else none

/-- Values for its parameters; the EQUAD is a Constant. -/
noncomputable def exParams : Dict String Py :=
  [("J1909-3744_ASP_efac", .val (.obj 2)), ("J1909-3744_GUPPI_efac", .val (.obj 3)), ("gw_gamma", .val (.obj 4))]

example : ∃ r, ndiag (measurementFn (.parClass none) (some (.parClass (some (.val (.obj 0)))))) exPsr "" 3
      (byBackend ["GUPPI", "ASP", "GUPPI"]) exParams = .ok r ∧ r.length = 3 ∧
      r[0]? = some 18 ∧ r[1]? = some 20 ∧ r[2]? = some 90 := by
  obtain ⟨r, hr, hl, hv⟩ := C127_backends exPsr (by decide) [1, 2, 3] (by simp [exPsr]) ["GUPPI", "ASP", "GUPPI"] rfl (by decide)
    exParams none (some (.val (.obj 0))) (fun b => if b = "ASP" then 2 else 3) (fun _ => 0)
    (by
      intro b hb
      simp only [List.mem_cons, List.not_mem_nil, or_false] at hb
      rcases hb with rfl | rfl | rfl <;> simp [Gives, exPsr, exParams, Dict.get?])
    (by
      intro b hb
      simp only [List.mem_cons, List.not_mem_nil, or_false] at hb
      rcases hb with rfl | rfl | rfl <;> simp [Gives, exPsr, exParams, Dict.get?])
  refine ⟨r, hr, hl, ?_, ?_, ?_⟩
  · rw [hv 0 1 "GUPPI" rfl rfl, if_neg (by decide)]; norm_num
  · rw [hv 1 2 "ASP" rfl rfl]; norm_num
  · rw [hv 2 3 "GUPPI" rfl rfl, if_neg (by decide)]; norm_num

/-- Another dictionary with a different EFAC for ASP. -/
noncomputable def exParams' : Dict String Py :=
  [("J1909-3744_ASP_efac", .val (.obj 7)), ("J1909-3744_GUPPI_efac", .val (.obj 3)), ("gw_gamma", .val (.obj 4))]

/-- The hypotheses of `C127_local` hold for these, with the EFAC of ASP changed. -/
example : ∃ r r', ndiag (measurementFn (.parClass none) (some (.parClass (some (.val (.obj 0)))))) exPsr "" 3
      (byBackend ["GUPPI", "ASP", "GUPPI"]) exParams = .ok r ∧
    ndiag (measurementFn (.parClass none) (some (.parClass (some (.val (.obj 0)))))) exPsr "" 3
      (byBackend ["GUPPI", "ASP", "GUPPI"]) exParams' = .ok r' ∧
    ∀ (i : Nat) (k : String) (m : Mask), (k, m) ∈ byBackend ["GUPPI", "ASP", "GUPPI"] → InMask m i → k ≠ "ASP" → r[i]? = r'[i]? := by
  obtain ⟨hpart, hkeys, -⟩ := C01_by_backend ["GUPPI", "ASP", "GUPPI"]
  have hmem : ∀ km ∈ byBackend ["GUPPI", "ASP", "GUPPI"], km.1 = "GUPPI" ∨ km.1 = "ASP" := by
    intro km hkm
    obtain ⟨⟨i, hi⟩, hiff⟩ := hkeys km.1 km.2 hkm
    have := List.mem_of_getElem? ((hiff i).1 hi)
    simp at this
    tauto
  refine C127_local exPsr (by decide) "" [1, 2, 3] (by simp [exPsr]) _ hpart exParams exParams' none (some (.val (.obj 0)))
    (fun b => if b = "ASP" then 2 else 3) (fun b => if b = "ASP" then 7 else 3) (fun _ => 0) (fun _ => 0) ?_ ?_ ?_ ?_ "ASP" ?_
  · intro km h; rcases hmem km h with h | h <;> rw [h] <;> simp [Gives, exPsr, exParams, Dict.get?, docName]
  · intro km h; rcases hmem km h with h | h <;> rw [h] <;> simp [Gives, exPsr, exParams, Dict.get?, docName]
  · intro km h; rcases hmem km h with h | h <;> rw [h] <;> simp [Gives, exPsr, exParams', Dict.get?, docName]
  · intro km h; rcases hmem km h with h | h <;> rw [h] <;> simp [Gives, exPsr, exParams', Dict.get?, docName]
  · intro n hn
    have : docName [exPsr.name, "", "ASP", "efac"] = "J1909-3744_ASP_efac" := by simp [docName, exPsr]
    rw [this] at hn
    simp [exParams, exParams', Dict.get?, Ne.symm hn]

/-- A common process with a fixed slope. -/
example : IsPowerlaw [1, 3] (-15) 4 (commonPrior (powerlawFn (.parClass none) (.parClass (some (.val (.obj 4))))) "gw" (Bases.rep 2 [1, 3])
    [("gw_log10_A", .val (.obj (-15)))]) :=
  (C127_powerlaw exPsr (by simp [exPsr]) "gw" "" [1, 3] (by simp [Spectra.Ascending]) _ none (some (.val (.obj 4))) (-15) 4).2
    (by simp [Gives, docName, Dict.get?]) (by simp [Gives, docName, Dict.get?])

example : ecorrAmp "J1909-3744" "" none (byBackend ["GUPPI"]) "GUPPI" [("J1909-3744_GUPPI_log10_ecorr", .val (.obj 1))] = .ok 100 := by
  have h : ("GUPPI", [true]) ∈ byBackend ["GUPPI"] := by decide +kernel
  rw [(C127_ecorr "J1909-3744" "" (by decide) none _ _ h _).1 1 (by simp [Gives, docName, Dict.get?])]
  norm_num

/-- A ramp with one slope for each backend, one of them with a parameter in the dictionary and one a Constant. -/
example : ∃ r, delay (waveFn (fun t y => t.map fun u => y * u) "ramp" (.parClass (some (.val (.obj 5))))) ⟨"J1909-3744", fun a => if a = "toas" then
      some (.arr [1, 2, 3]) else none⟩ "glitch" 3 (byBackend ["GUPPI", "PUPPI", "GUPPI"])
      [("J1909-3744_glitch_PUPPI_ramp_x", .val (.obj 7))] = .ok r ∧ r.length = 3 ∧ r[0]? = some 5 ∧ r[1]? = some 14 := by
  have h : byBackend ["GUPPI", "PUPPI", "GUPPI"] = [("GUPPI", [true, false, true]), ("PUPPI", [false, true, false])] := by decide
  have hx : ∀ km ∈ byBackend ["GUPPI", "PUPPI", "GUPPI"], ItemGives [("J1909-3744_glitch_PUPPI_ramp_x", .val (.obj 7))]
      (docName ["J1909-3744", "glitch", km.1, "ramp", "x"]) (if km.1 = "PUPPI" then 7 else 5) (.parClass (some (.val (.obj 5)))) := by
    intro km hkm
    rw [h] at hkm
    have : km = ("GUPPI", [true, false, true]) ∨ km = ("PUPPI", [false, true, false]) := by simpa using hkm
    rcases this with rfl | rfl
    · show Gives _ _ _ _
      rw [if_neg (by decide)]
      rfl
    · show Gives _ _ _ _
      rw [if_pos rfl]
      rfl
  obtain ⟨r, h1, h2, h3⟩ := C127_delay ⟨"J1909-3744", fun a => if a = "toas" then some (.arr [1, 2, 3]) else none⟩ "glitch" "ramp" [1, 2, 3] rfl
    (byBackend ["GUPPI", "PUPPI", "GUPPI"]) (C01_by_backend ["GUPPI", "PUPPI", "GUPPI"]).1 _ _ (fun k => if k = "PUPPI" then 7 else 5) hx
    fun y u => y * u
  refine ⟨r, h1, h2, ?_, ?_⟩
  · rw [h3 0 1 "GUPPI" [true, false, true] rfl (by decide) rfl, if_neg (by decide)]
    norm_num
  · rw [h3 1 2 "PUPPI" [false, true, false] rfl (by decide) rfl]
    norm_num

/-- A Function of a Function of the TOAs. -/
example (body : Body Py) (w : List ℝ → ℝ → List ℝ) :
    ((FnC.mk body ["y"] "" (.cons "y" (.fnClass (waveFn w "" (.parClass none))) .nil)).make "J1909-3744" (some (.psr fun a =>
      if a = "toas" then some (.arr [1, 2, 3]) else none))).call [] [] [("J1909-3744_y_x", .val (.obj 7))] =
      body [] [("y", .val (.arr (w [1, 2, 3] 7))), ("psr", .psr fun a => if a = "toas" then some (.arr [1, 2, 3]) else none)] :=
  C127_nested ⟨"J1909-3744", fun a => if a = "toas" then some (.arr [1, 2, 3]) else none⟩ "J1909-3744" "" "y" "" (by decide) (by decide) [1, 2, 3] rfl _
    none 7 (by rfl) w body ["y"]

end Verif.Named
