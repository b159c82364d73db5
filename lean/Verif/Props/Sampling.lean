import Verif.Props.Params

/-!
# Properties C37, C42, C43, C76: sampling, constants, names, summary
-/

set_option linter.unusedSectionVars false

namespace Verif.Params

open Verif

/-! ## C37: sampling -/

section
variable {V : Type} (draw : Par → List (Option V) → Nat → V)

/-- Every parameter's value was drawn with the hyperparameter values found in the same dictionary. -/
def Consistent (D : Dict String V) (ps : List Par) : Prop :=
  ∀ p ∈ ps, ∃ r, Dict.get? D p.name = some (draw p (p.hypers.map fun h => Dict.get? D h.name) r)

theorem paramsAll_flatMap (l : List Par) : paramsAll l = l.flatMap Par.params := by
  induction l with
  | nil => rw [paramsAll]; rfl
  | cons a t ih => rw [paramsAll, ih]; rfl

theorem params_eq (p : Par) : p.params = p :: p.hypers.flatMap Par.params := by
  cases p with
  | mk i n s hs => rw [Par.params, paramsAll_flatMap]; rfl

theorem get?_update_notin (e d : Dict String V) (k : String) (h : k ∉ e.map Prod.fst) :
    Dict.get? (Dict.update d e) k = Dict.get? d k := by
  unfold Dict.update
  induction e generalizing d with
  | nil => rfl
  | cons kv t ih =>
    simp only [List.map_cons, List.mem_cons, not_or] at h
    rw [List.foldl_cons, ih _ h.2, Dict.get?_set_ne _ _ (Ne.symm h.1)]

theorem keys_update_sub (e d : Dict String V) (k : String) (h : k ∈ (Dict.update d e).map Prod.fst) :
    k ∈ d.map Prod.fst ∨ k ∈ e.map Prod.fst := by
  unfold Dict.update at h
  induction e generalizing d with
  | nil => exact Or.inl h
  | cons kv t ih =>
    rw [List.foldl_cons] at h
    rcases ih _ h with h | h
    · rw [Dict.mem_keys_set] at h
      rcases h with h | h
      · right; simp [h]
      · exact Or.inl h
    · right; exact List.mem_cons_of_mem _ h

/-- Only the names of the parameters in the list and below them are written. -/
theorem sampleList_keys (l : List Par) (d : Dict String V) (r : Nat) :
    ∀ k ∈ (sampleList draw l d r).1.map Prod.fst, k ∈ d.map Prod.fst ∨ k ∈ (l.flatMap Par.params).map Par.name := by
  fun_induction sampleList draw l d r with
  | case1 d r => intro k hk; exact Or.inl hk
  | case2 d r p t e d1 ih1 ih2 =>
    intro k hk
    rw [List.flatMap_cons, List.map_append, List.mem_append]
    rcases ih2 k hk with h | h
    · rw [Dict.mem_keys_set] at h
      rcases h with h | h
      · right; left
        rw [h]
        exact List.mem_map_of_mem (self_mem_params p)
      · rcases keys_update_sub _ _ _ h with h | h
        · exact Or.inl h
        · rcases ih1 k h with h | h
          · simp at h
          · right; left
            obtain ⟨q, hq, rfl⟩ := List.mem_map.1 h
            obtain ⟨x, hx, hqx⟩ := List.mem_flatMap.1 hq
            exact List.mem_map_of_mem (params_trans p x (List.mem_of_mem_tail hx) q hqx)
    · exact Or.inr (Or.inr h)

theorem sampleList_untouched (l : List Par) (d : Dict String V) (r : Nat) (k : String)
    (h : k ∉ (l.flatMap Par.params).map Par.name) : Dict.get? (sampleList draw l d r).1 k = Dict.get? d k := by
  induction l generalizing d r with
  | nil => rw [sampleList]
  | cons p t ih =>
    rw [List.flatMap_cons, List.map_append, List.mem_append, not_or] at h
    rw [sampleList]
    rw [ih _ _ h.2, Dict.get?_set_ne _ _ fun e => h.1 (by rw [← e]; exact List.mem_map_of_mem (self_mem_params p))]
    apply get?_update_notin
    intro hk
    rcases sampleList_keys draw _ _ _ k hk with h' | h'
    · simp at h'
    · obtain ⟨q, hq, rfl⟩ := List.mem_map.1 h'
      obtain ⟨x, hx, hqx⟩ := List.mem_flatMap.1 hq
      exact h.1 (List.mem_map_of_mem (params_trans p x (List.mem_of_mem_tail hx) q hqx))

theorem sampleList_nodup (l : List Par) (d : Dict String V) (r : Nat) (h : (d.map Prod.fst).Nodup) :
    ((sampleList draw l d r).1.map Prod.fst).Nodup := by
  induction l generalizing d r with
  | nil => rw [sampleList]; exact h
  | cons p t ih =>
    rw [sampleList]
    apply ih
    apply Dict.nodup_keys_set
    exact Dict.nodup_keys_update _ h

/-- C37 (partial): suppose parameters and hyperparameters with the same name are the same object, no
hyperparameter has hyperparameters of its own, and for every parameter with hyperparameters no
later element of the list shares one of its names (as a parameter or below one).  Then in the
sampled dictionary every value was drawn with the hyperparameter values found there.  Missing:
shared hyperparameters (`C37_shared_false`), deeper hierarchies (`C37_deep_false`), and lists in
which a hyperparameter follows (`C37_order_false`). -/
theorem C37_consistent_partial (l : List Par) (r : Nat)
    (hname : ∀ p ∈ l.flatMap Par.params, ∀ q ∈ l.flatMap Par.params, p.name = q.name → p = q)
    (hdepth : ∀ p ∈ l, ∀ h ∈ p.hypers, h.hypers = [])
    (hlater : l.Pairwise fun p q => p.hypers = [] ∨ ∀ n ∈ p.params.map Par.name, n ∉ q.params.map Par.name) :
    Consistent draw (sample draw l r) (l.flatMap Par.params) := by
  unfold sample
  have leaf : ∀ (l : List Par) (d : Dict String V) (r : Nat), (∀ p ∈ l, p.hypers = []) →
      (∀ p ∈ l, ∀ q ∈ l, p.name = q.name → p = q) → ∀ p ∈ l, ∃ r', Dict.get? (sampleList draw l d r).1 p.name = some (draw p [] r') := by
    intro l
    induction l with
    | nil => intro d r _ _ p hp; simp at hp
    | cons a t ih =>
      intro d r hh hn p hp
      rw [sampleList]
      by_cases hpt : p.name ∈ (t.flatMap Par.params).map Par.name
      · obtain ⟨q, hq, e⟩ := List.mem_map.1 hpt
        obtain ⟨x, hx, hqx⟩ := List.mem_flatMap.1 hq
        rw [params_eq, hh x (by simp [hx])] at hqx
        simp only [List.flatMap_nil, List.mem_singleton] at hqx
        subst hqx
        have := hn q (by simp [hx]) p hp e
        subst this
        exact ih _ _ (fun p hp => hh p (by simp [hp])) (fun p hp q hq => hn p (by simp [hp]) q (by simp [hq])) q hx
      · rw [sampleList_untouched draw t _ _ _ hpt]
        have : p = a := by
          rcases List.mem_cons.1 hp with rfl | hp
          · rfl
          · exact absurd (List.mem_map_of_mem (List.mem_flatMap.2 ⟨p, hp, self_mem_params p⟩)) hpt
        subst this
        rw [Dict.get?_set_self, hh p (by simp)]
        exact ⟨_, rfl⟩
  have main : ∀ (l : List Par) (d : Dict String V) (r : Nat), (d.map Prod.fst).Nodup →
      (∀ p ∈ l.flatMap Par.params, ∀ q ∈ l.flatMap Par.params, p.name = q.name → p = q) →
      (∀ p ∈ l, ∀ h ∈ p.hypers, h.hypers = []) →
      (l.Pairwise fun p q => p.hypers = [] ∨ ∀ n ∈ p.params.map Par.name, n ∉ q.params.map Par.name) →
      Consistent draw (sampleList draw l d r).1 (l.flatMap Par.params) := by
    intro l
    induction l with
    | nil => intro d r _ _ _ _ p hp; simp at hp
    | cons a t ih =>
      intro d r hnd hn hdep hpw
      have hpw' := List.pairwise_cons.1 hpw
      have hd1 : ((Dict.update d (sampleList draw a.params.tail [] r).1).map Prod.fst).Nodup := Dict.nodup_keys_update _ hnd
      have iht := ih (Dict.set (Dict.update d (sampleList draw a.params.tail [] r).1) a.name
        (draw a (a.hypers.map fun h => Dict.get? (Dict.update d (sampleList draw a.params.tail [] r).1) h.name)
          (sampleList draw a.params.tail [] r).2)) ((sampleList draw a.params.tail [] r).2 + 1)
        (Dict.nodup_keys_set _ _ hd1)
        (fun p hp q hq => hn p (by rw [List.flatMap_cons]; exact List.mem_append_right _ hp) q
          (by rw [List.flatMap_cons]; exact List.mem_append_right _ hq))
        (fun p hp => hdep p (by simp [hp])) hpw'.2
      rw [sampleList]
      generalize hD : (sampleList draw t _ _).1 = D at iht ⊢
      intro p hp
      rw [List.flatMap_cons, List.mem_append] at hp
      rcases hp with hp | hp
      swap
      · exact iht p hp
      have hpa : ∀ q ∈ a.params, q ∈ (a :: t).flatMap Par.params := fun q hq => by
        rw [List.flatMap_cons]; exact List.mem_append_left _ hq
      by_cases hah : a.hypers = []
      · rw [params_eq, hah] at hp
        simp only [List.flatMap_nil, List.mem_singleton] at hp
        subst hp
        by_cases hpt : p.name ∈ (t.flatMap Par.params).map Par.name
        · obtain ⟨q, hq, e⟩ := List.mem_map.1 hpt
          have := hn q (by rw [List.flatMap_cons]; exact List.mem_append_right _ hq) p (hpa p (self_mem_params p)) e
          subst this
          exact iht q hq
        · rw [← hD, sampleList_untouched draw t _ _ _ hpt, Dict.get?_set_self, hah]
          exact ⟨_, rfl⟩
      · have hfree : ∀ q ∈ a.params, q.name ∉ (t.flatMap Par.params).map Par.name := by
          intro q hq hm
          obtain ⟨x, hx, e⟩ := List.mem_map.1 hm
          obtain ⟨y, hy, hxy⟩ := List.mem_flatMap.1 hx
          rcases hpw'.1 y hy with h | h
          · exact hah h
          · exact h q.name (List.mem_map_of_mem hq) (by rw [← e]; exact List.mem_map_of_mem hxy)
        have htail : a.params.tail = a.hypers := by
          rw [tail_params, paramsAll_flatMap]
          have : ∀ hs : List Par, (∀ h ∈ hs, h.hypers = []) → hs.flatMap Par.params = hs := by
            intro hs
            induction hs with
            | nil => intro _; rfl
            | cons b u ihu =>
              intro h
              rw [List.flatMap_cons, ihu fun x hx => h x (by simp [hx]), params_eq, h b (by simp)]
              rfl
          exact this _ (hdep a (by simp))
        have hmemh : ∀ h ∈ a.hypers, h ∈ a.params := fun h hh => hypers_sub_params a h hh h (self_mem_params h)
        have hne : ∀ h ∈ a.hypers, h.name ≠ a.name := by
          intro h hh e
          have := hn h (hpa h (hmemh h hh)) a (hpa a (self_mem_params a)) e
          subst this
          exact hah (hdep h (by simp) h hh)
        have hval : ∀ h ∈ a.hypers, Dict.get? D h.name = Dict.get? (Dict.update d (sampleList draw a.params.tail [] r).1) h.name := by
          intro h hh
          rw [← hD, sampleList_untouched draw t _ _ _ (hfree h (hmemh h hh)), Dict.get?_set_ne _ _ (Ne.symm (hne h hh))]
        rw [params_eq] at hp
        rcases List.mem_cons.1 hp with rfl | hp
        · refine ⟨(sampleList draw p.params.tail [] r).2, ?_⟩
          have : (p.hypers.map fun h => Dict.get? D h.name) =
              p.hypers.map fun h => Dict.get? (Dict.update d (sampleList draw p.params.tail [] r).1) h.name :=
            List.map_congr_left hval
          rw [this, ← hD, sampleList_untouched draw t _ _ _ (hfree p (self_mem_params p)), Dict.get?_set_self]
        · have hpm : p ∈ a.hypers := by
            rw [← paramsAll_flatMap, ← tail_params, htail] at hp; exact hp
          obtain ⟨r', hr'⟩ := leaf a.hypers [] r (hdep a (by simp))
            (fun x hx y hy => hn x (hpa x (hmemh x hx)) y (hpa y (hmemh y hy))) p hpm
          refine ⟨r', ?_⟩
          rw [hval p hpm, htail, hdep a (by simp) p hpm, List.map_nil]
          rw [Dict.get?_update_of_nodup d _ (sampleList_nodup draw a.hypers [] r List.nodup_nil), hr']
          rfl
  exact main l [] r (by simp) hname hdepth hlater

end

/-- A sampler whose value is that of its first hyperparameter (a very narrow prior around it), or the
number of the draw if there is none. -/
def narrow : Par → List (Option Nat) → Nat → Nat
  | _, some v :: _, _ => v
  | _, _, r => r

/-- The hypotheses of the theorem hold for two parameters with their own hyperparameters. -/
example :
    sample narrow [.mk 0 "x" none [.mk 1 "hx" none []], .mk 2 "y" none [.mk 3 "hy" none []], .mk 4 "z" none []] 0 =
      [("hx", 0), ("x", 0), ("hy", 2), ("y", 2), ("z", 4)] := by
  simp [sample, sampleList, Par.params, paramsAll, Par.hypers, Par.name, Dict.update, Dict.set, Dict.get?, narrow]

/-- C37 is false (1): with a hyperparameter shared by two parameters the first was drawn with a value
that is no longer in the dictionary. -/
theorem C37_shared_false :
    let h := Par.mk 0 "h" none []
    let l := [Par.mk 1 "x" none [h], Par.mk 2 "y" none [h]]
    sample narrow l 0 = [("h", 2), ("x", 0), ("y", 2)] ∧ ¬ Consistent narrow (sample narrow l 0) (l.flatMap Par.params) := by
  intro h l
  have e : sample narrow l 0 = [("h", 2), ("x", 0), ("y", 2)] := by
    simp [l, h, sample, sampleList, Par.params, paramsAll, Par.hypers, Par.name, Dict.update, Dict.set, Dict.get?, narrow]
  refine ⟨e, fun hc => ?_⟩
  obtain ⟨r, hr⟩ := hc (Par.mk 1 "x" none [h]) (by simp [l, Par.params])
  rw [e] at hr
  simp [h, Par.name, Par.hypers, Dict.get?, narrow] at hr

/-- C37 is false (2): with hyperparameters of hyperparameters. -/
theorem C37_deep_false :
    let g := Par.mk 0 "g" none []
    let h := Par.mk 1 "h" none [g]
    let l := [Par.mk 2 "x" none [h]]
    sample narrow l 0 = [("g", 2), ("h", 0), ("x", 0)] ∧ ¬ Consistent narrow (sample narrow l 0) (l.flatMap Par.params) := by
  intro g h l
  have e : sample narrow l 0 = [("g", 2), ("h", 0), ("x", 0)] := by
    simp [l, h, g, sample, sampleList, Par.params, paramsAll, Par.hypers, Par.name, Dict.update, Dict.set, Dict.get?, narrow]
  refine ⟨e, fun hc => ?_⟩
  obtain ⟨r, hr⟩ := hc h (by simp [l, h, Par.params, paramsAll])
  rw [e] at hr
  simp [h, g, Par.name, Par.hypers, Dict.get?, narrow] at hr

/-- C37 is false (3): sampling `PTA.params`, which lists hyperparameters too and is sorted by name, is
inconsistent when a hyperparameter's name sorts after that of the parameter using it. -/
theorem C37_order_false :
    let h := Par.mk 0 "z_h" none []
    let x := Par.mk 1 "a" none [h]
    ptaParams id [[[x]]] = [x, h] ∧ sample narrow (ptaParams id [[[x]]]) 0 = [("z_h", 2), ("a", 0)] ∧
    ¬ Consistent narrow (sample narrow (ptaParams id [[[x]]]) 0) (ptaParams id [[[x]]]) := by
  intro h x
  have e0 : ptaParams id [[[x]]] = [x, h] := by
    simp [ptaParams, scParams, dedupId, sortByName, Par.params, paramsAll, x, h, Par.id, Par.name]
  have e : sample narrow [x, h] 0 = [("z_h", 2), ("a", 0)] := by
    simp [h, x, sample, sampleList, Par.params, paramsAll, Par.hypers, Par.name, Dict.update, Dict.set, Dict.get?, narrow]
  rw [e0]
  refine ⟨rfl, e, fun hc => ?_⟩
  obtain ⟨r, hr⟩ := hc x (by simp)
  rw [e] at hr
  simp [h, x, Par.name, Par.hypers, Dict.get?, narrow] at hr

/-! ## C42: constants -/

section
variable {V : Type}

/-- The Constants registered in the signals of a model. -/
def registered (pta : List (List (Dict String Entry))) (i : Nat) : Prop :=
  ∃ sc ∈ pta, ∃ sig ∈ sc, ∃ k, (k, Entry.const i) ∈ sig

theorem setOne_name (d : Dict String V) (h : Heap V) (e : Entry) (i : Nat) : (setOne d h e i).name = (h i).name := by
  cases e with
  | par n c => rfl
  | const j =>
    unfold setOne
    simp only
    cases Dict.get? d (h j).name with
    | none => rfl
    | some v =>
      simp only
      split
      · rename_i hij; rw [hij]
      · rfl

theorem setOne_spec (d : Dict String V) (h : Heap V) (e : Entry) (i : Nat) :
    (setOne d h e i).value = if e = .const i then (match Dict.get? d (h i).name with | some v => some v | none => (h i).value)
      else (h i).value := by
  cases e with
  | par n c => simp [setOne]
  | const j =>
    unfold setOne
    simp only
    by_cases hij : j = i
    · subst hij
      simp only [if_true]
      cases hd : Dict.get? d (h j).name with
      | none => rfl
      | some v => simp
    · have : (Entry.const j = Entry.const i) = False := by simp [hij]
      simp only [this, if_false]
      cases Dict.get? d (h j).name with
      | none => rfl
      | some v => simp [Ne.symm hij]

theorem foldEntries_spec (d : Dict String V) (l : List Entry) (h : Heap V) (i : Nat) :
    (l.foldl (setOne d) h i).name = (h i).name ∧
    (l.foldl (setOne d) h i).value = if Entry.const i ∈ l then
      (match Dict.get? d (h i).name with | some v => some v | none => (h i).value) else (h i).value := by
  induction l generalizing h with
  | nil => simp
  | cons e t ih =>
    rw [List.foldl_cons]
    obtain ⟨h1, h2⟩ := ih (setOne d h e)
    have hn := setOne_name d h e i
    have hs := setOne_spec d h e i
    refine ⟨by rw [h1, hn], ?_⟩
    rw [h2, hn, hs]
    by_cases he : e = Entry.const i
    · subst he
      simp only [if_true, List.mem_cons, true_or]
      split <;> cases Dict.get? d (h i).name <;> rfl
    · simp only [if_neg he, List.mem_cons, Ne.symm he, false_or]

theorem setPta_flat (d : Dict String V) (h : Heap V) (pta : List (List (Dict String Entry))) :
    setPta d h pta = ((pta.flatMap fun sc => sc.flatMap fun sig => sig.map Prod.snd).foldl (setOne d) h) := by
  have hsig : ∀ (sig : Dict String Entry) (h : Heap V), setSignal d h sig = (sig.map Prod.snd).foldl (setOne d) h := by
    intro sig h
    rw [setSignal, List.foldl_map]
  have hsc : ∀ (sc : List (Dict String Entry)) (h : Heap V),
      sc.foldl (setSignal d) h = (sc.flatMap fun sig => sig.map Prod.snd).foldl (setOne d) h := by
    intro sc
    induction sc with
    | nil => intro h; rfl
    | cons sig t ih => intro h; rw [List.foldl_cons, ih, hsig, List.flatMap_cons, List.foldl_append]
  unfold setPta
  induction pta generalizing h with
  | nil => rfl
  | cons sc t ih => rw [List.foldl_cons, ih, hsc, List.flatMap_cons, List.foldl_append]

theorem mem_flat (pta : List (List (Dict String Entry))) (i : Nat) :
    Entry.const i ∈ (pta.flatMap fun sc => sc.flatMap fun sig => sig.map Prod.snd) ↔ registered pta i := by
  constructor
  · intro h
    obtain ⟨sc, h1, h⟩ := List.mem_flatMap.1 h
    obtain ⟨sig, h2, h⟩ := List.mem_flatMap.1 h
    obtain ⟨⟨k, e⟩, h3, rfl⟩ := List.mem_map.1 h
    exact ⟨sc, h1, sig, h2, k, h3⟩
  · rintro ⟨sc, h1, sig, h2, k, h3⟩
    exact List.mem_flatMap.2 ⟨sc, h1, List.mem_flatMap.2 ⟨sig, h2, List.mem_map_of_mem (f := Prod.snd) h3⟩⟩

/-- C42 (partial): `set_default_params` gives every Constant registered in a signal of the model the
value the dictionary has for its name; Constants without entry, or not registered, and all names
stay as they are.  Missing: Constants inside the prior of a Parameter (`C42_prior_false`). -/
theorem C42_set_partial (d : Dict String V) (h : Heap V) (pta : List (List (Dict String Entry))) (i : Nat) :
    (setPta d h pta i).name = (h i).name ∧
    (registered pta i → ∀ v, Dict.get? d (h i).name = some v → (setPta d h pta i).value = some v) ∧
    (Dict.get? d (h i).name = none → setPta d h pta i = h i) ∧
    (¬ registered pta i → setPta d h pta i = h i) := by
  rw [setPta_flat]
  obtain ⟨h1, h2⟩ := foldEntries_spec d (pta.flatMap fun sc => sc.flatMap fun sig => sig.map Prod.snd) h i
  have hm := mem_flat pta i
  have ext : ∀ a b : Const V, a.name = b.name → a.value = b.value → a = b := by
    intro a b e1 e2; cases a; cases b; simp_all
  refine ⟨h1, ?_, ?_, ?_⟩
  · intro hr v hv
    rw [h2, if_pos (hm.2 hr), hv]
  · intro hv
    apply ext _ _ h1
    rw [h2, hv]
    simp
  · intro hr
    apply ext _ _ h1
    rw [h2, if_neg fun h => hr (hm.1 h)]

/-- C42: repeating the call changes nothing. -/
theorem C42_idempotent (d : Dict String V) (h : Heap V) (pta : List (List (Dict String Entry))) :
    setPta d (setPta d h pta) pta = setPta d h pta := by
  funext i
  obtain ⟨n1, a1, b1, c1⟩ := C42_set_partial d h pta i
  obtain ⟨n2, a2, b2, c2⟩ := C42_set_partial d (setPta d h pta) pta i
  by_cases hr : registered pta i
  · cases hv : Dict.get? d (h i).name with
    | none => exact b2 (by rw [n1]; exact hv)
    | some v =>
      have e1 := a1 hr v hv
      have e2 := a2 hr v (by rw [n1]; exact hv)
      have ext : ∀ a b : Const V, a.name = b.name → a.value = b.value → a = b := by
        intro a b e1 e2; cases a; cases b; simp_all
      exact ext _ _ n2 (by rw [e1, e2])
  · exact c2 hr

/-- C42: the order of pulsars and signals does not matter. -/
theorem C42_order (d : Dict String V) (h : Heap V) (pta pta' : List (List (Dict String Entry)))
    (hs : ∀ i, registered pta i ↔ registered pta' i) : setPta d h pta = setPta d h pta' := by
  funext i
  have ext : ∀ a b : Const V, a.name = b.name → a.value = b.value → a = b := by
    intro a b e1 e2; cases a; cases b; simp_all
  obtain ⟨n1, a1, b1, c1⟩ := C42_set_partial d h pta i
  obtain ⟨n2, a2, b2, c2⟩ := C42_set_partial d h pta' i
  by_cases hr : registered pta i
  · cases hv : Dict.get? d (h i).name with
    | none => rw [b1 hv, b2 hv]
    | some v => exact ext _ _ (by rw [n1, n2]) (by rw [a1 hr v hv, a2 ((hs i).1 hr) v hv])
  · rw [c1 hr, c2 fun h => hr ((hs i).2 h)]

/-- C42 is false for a Constant used in the prior of a Parameter (`Uniform(0, Constant())`): it keeps
its value although its name is in the dictionary. -/
theorem C42_prior_false (v : V) :
    let pta : List (List (Dict String Entry)) := [[[("x", .par "psr_x" [0])]]]
    let h : Heap V := fun _ => ⟨"psr_x_pmax", none⟩
    Dict.get? [("psr_x_pmax", v)] (h 0).name = some v ∧ (setPta [("psr_x_pmax", v)] h pta 0).value = none := by
  exact ⟨rfl, rfl⟩

/-- Two signals sharing Constant 0, one having Constant 1, whose name is not given. -/
example :
    let pta : List (List (Dict String Entry)) :=
      [[[("efac", .const 0)], [("gamma", .const 1), ("A", .par "gw_A" [])]], [[("efac", .const 0)]]]
    let h : Heap Nat := fun i => if i = 0 then ⟨"efac", none⟩ else ⟨"gw_gamma", some 4⟩
    (setPta [("efac", 7), ("other", 9)] h pta 0).value = some 7 ∧ (setPta [("efac", 7), ("other", 9)] h pta 1).value = some 4 := by
  decide +kernel

end

/-! ## C43: names -/

theorem joinNames_ne (l : List String) : joinNames l = "" ↔ ∀ n ∈ l, n = "" := by
  induction l with
  | nil => simp [joinNames]
  | cons a t ih =>
    rw [joinNames]
    by_cases ha : a = ""
    · rw [if_pos ha, ih]; simp [ha]
    · rw [if_neg ha]
      constructor
      · intro h
        exfalso
        split at h
        · exact ha h
        · have := congrArg String.length h
          simp at this
      · intro h; exact absurd (h a (by simp)) ha

theorem joinNames_append (l m : List String) :
    joinNames (l ++ m) = if joinNames l = "" then joinNames m else if joinNames m = "" then joinNames l
      else joinNames l ++ "_" ++ joinNames m := by
  induction l with
  | nil => simp [joinNames]
  | cons a t ih =>
    rw [List.cons_append, joinNames, joinNames, ih]
    by_cases ha : a = ""
    · simp [ha]
    · have hx : ∀ x y : String, x ++ "_" ++ y ≠ "" := by
        intro x y h
        have := congrArg String.length h
        simp at this
      rw [if_neg ha, if_neg ha]
      by_cases ht : joinNames t = "" <;> by_cases hm : joinNames m = "" <;> simp [ha, ht, hm, String.append_assoc]

/-- The name is the join of all five parts. -/
theorem selName_eq (psr sname key fname kw : String) :
    selName psr sname key fname kw = joinNames [psr, sname, key, fname, kw] := by
  have e : joinNames [psr, sname, key, fname, kw] = joinNames ([psr, sname, key] ++ [fname, kw]) := rfl
  rw [e, joinNames_append]
  unfold selName
  rw [joinNames]

/-- C43: in a signal made from a Function (white noise, Gaussian processes, waveforms), the
parameters for the same keyword and different selection keys have different names, and every
name is the pulsar's followed by an underscore and more. -/
theorem C43_function_names (psr sname fname kw k1 k2 : String) (hp : psr ≠ "") (hkw : kw ≠ "") :
    (selName psr sname k1 fname kw = selName psr sname k2 fname kw → k1 = k2) ∧
    ∃ rest, rest ≠ "" ∧ selName psr sname k1 fname kw = psr ++ "_" ++ rest := by
  constructor
  · have hA : joinNames [psr, sname] ≠ "" := fun h => hp ((joinNames_ne _).1 h psr (by simp))
    have hB : joinNames [fname, kw] ≠ "" := fun h => hkw ((joinNames_ne _).1 h kw (by simp))
    have key : ∀ k, selName psr sname k fname kw =
        if k = "" then joinNames [psr, sname] ++ "_" ++ joinNames [fname, kw]
        else joinNames [psr, sname] ++ "_" ++ k ++ "_" ++ joinNames [fname, kw] := by
      intro k
      rw [selName_eq]
      have e : ([psr, sname, k, fname, kw] : List String) = [psr, sname] ++ (k :: [fname, kw]) := rfl
      rw [e, joinNames_append, if_neg hA, joinNames]
      by_cases hk : k = ""
      · rw [if_pos hk, if_pos hk, if_neg hB]
      · rw [if_neg hk, if_neg hk, if_neg hB]
        have : k ++ "_" ++ joinNames [fname, kw] ≠ "" := by
          intro h
          have := congrArg String.length h
          simp at this
        rw [if_neg this]
        simp [String.append_assoc]
    rw [key, key]
    intro h
    have len := congrArg String.length h
    have hl : ∀ s : String, s ≠ "" → 0 < s.length := by
      intro s hs
      rcases Nat.eq_zero_or_pos s.length with h | h
      · exact absurd (by simpa using h) hs
      · exact h
    by_cases a : k1 = "" <;> by_cases b : k2 = ""
    · rw [a, b]
    · rw [if_pos a, if_neg b] at len
      have := hl k2 b
      simp only [String.length_append] at len
      omega
    · rw [if_neg a, if_pos b] at len
      have := hl k1 a
      simp only [String.length_append] at len
      omega
    · rw [if_neg a, if_neg b] at h
      exact (String.append_right_inj _).1 ((String.append_left_inj _).1 ((String.append_left_inj _).1 h))
  · refine ⟨joinNames [sname, k1, fname, kw], fun h => hkw ((joinNames_ne _).1 h kw (by simp)), ?_⟩
    rw [selName_eq]
    have h : joinNames [sname, k1, fname, kw] ≠ "" := fun h => hkw ((joinNames_ne _).1 h kw (by simp))
    rw [joinNames, if_neg hp, if_neg h]

/-- C43: the same for `Selection.__call__`. -/
theorem C43_selection_names (psr par k1 k2 : String) :
    (selectionName psr k1 par = selectionName psr k2 par → k1 = k2) ∧
    ∃ rest, selectionName psr k1 par = psr ++ "_" ++ rest := by
  constructor
  · intro h
    unfold selectionName at h
    have h := (String.append_right_inj _).1 h
    have len := congrArg String.length h
    by_cases a : k1 = "" <;> by_cases b : k2 = ""
    · rw [a, b]
    · rw [if_pos a, if_neg b] at len
      simp only [String.length_append] at len
      have : ("_" : String).length = 1 := rfl
      omega
    · rw [if_neg a, if_pos b] at len
      simp only [String.length_append] at len
      have : ("_" : String).length = 1 := rfl
      omega
    · rw [if_neg a, if_neg b] at h
      exact (String.append_left_inj _).1 ((String.append_left_inj _).1 h)
  · exact ⟨_, rfl⟩

theorem suffix_cases (a b u v : String) (h : a ++ "_" ++ u = b ++ "_" ++ v) :
    u = v ∨ (∃ x, u = x ++ "_" ++ v) ∨ ∃ x, v = x ++ "_" ++ u := by
  have hl := congrArg String.toList h
  simp only [String.toList_append, List.append_assoc] at hl
  have e1 : ("_" : String).toList = ['_'] := rfl
  rw [e1] at hl
  have step : ∀ (u v a' : List Char), '_' :: u = a' ++ ('_' :: v) → u = v ∨ ∃ x, u = x ++ '_' :: v := by
    intro u v a' h
    cases a' with
    | nil => left; simpa using h
    | cons c t => right; exact ⟨t, by simpa using (List.cons.inj h).2⟩
  have back : ∀ (u v : String) (x : List Char), u.toList = x ++ '_' :: v.toList → ∃ x, u = x ++ "_" ++ v := by
    intro u v x hx
    refine ⟨String.ofList x, String.toList_inj.1 ?_⟩
    rw [hx]
    simp [e1]
  rcases List.append_eq_append_iff.1 hl with ⟨a', h1, h2⟩ | ⟨a', h1, h2⟩
  · rcases step _ _ _ h2 with h | ⟨x, hx⟩
    · exact Or.inl (String.toList_inj.1 h)
    · exact Or.inr (Or.inl (back u v x hx))
  · rcases step _ _ _ h2 with h | ⟨x, hx⟩
    · exact Or.inl (String.toList_inj.1 h.symm)
    · exact Or.inr (Or.inr (back v u x hx))

/-- C43 (partial): parameters for different keywords, too, have different names whatever the keys,
provided neither keyword (with the Function's name) is the other one preceded by something and an
underscore.  Missing: keywords of that form (`C43_keywords_false`). -/
theorem C43_keywords_partial (psr sname fname kw1 kw2 k1 k2 : String) (hp : psr ≠ "") (h1 : kw1 ≠ "") (h2 : kw2 ≠ "")
    (hne : joinNames [fname, kw1] ≠ joinNames [fname, kw2])
    (hs1 : ∀ x, joinNames [fname, kw1] ≠ x ++ "_" ++ joinNames [fname, kw2])
    (hs2 : ∀ x, joinNames [fname, kw2] ≠ x ++ "_" ++ joinNames [fname, kw1]) :
    selName psr sname k1 fname kw1 ≠ selName psr sname k2 fname kw2 := by
  intro h
  have key : ∀ k kw, kw ≠ "" → selName psr sname k fname kw = joinNames [psr, sname, k] ++ "_" ++ joinNames [fname, kw] := by
    intro k kw hk
    rw [selName_eq]
    have e : ([psr, sname, k, fname, kw] : List String) = [psr, sname, k] ++ [fname, kw] := rfl
    have hA : joinNames [psr, sname, k] ≠ "" := fun h => hp ((joinNames_ne _).1 h psr (by simp))
    have hB : joinNames [fname, kw] ≠ "" := fun h => hk ((joinNames_ne _).1 h kw (by simp))
    rw [e, joinNames_append, if_neg hA, if_neg hB]
  rw [key k1 kw1 h1, key k2 kw2 h2] at h
  rcases suffix_cases _ _ _ _ h with h | ⟨x, h⟩ | ⟨x, h⟩
  · exact hne h
  · exact hs1 x h
  · exact hs2 x h

/-- The usual keywords of white and red noise are of the allowed form. -/
example : joinNames ["", "log10_A"] ≠ joinNames ["", "gamma"] ∧
    selName "J0030+0451" "red_noise" "L-wide_PUPPI" "" "log10_A" = "J0030+0451_red_noise_L-wide_PUPPI_log10_A" ∧
    selName "J0030+0451" "" "" "" "efac" = "J0030+0451_efac" := by decide +kernel

/-- C43 is false for keywords where one ends with an underscore and the other: two different selection
keys give the same name. -/
theorem C43_keywords_false : selName "psr" "rn" "k_x" "" "A" = selName "psr" "rn" "k" "" "x_A" := by decide +kernel

/-! ## C76: the summary -/

/-- C76: `Total` is always `Varying` plus `Fixed`, `Varying` is the number of `param_names`, and the
number of pulsars is right. -/
theorem C76_total (contains : String → String → Bool) (nvary : Nat) (pta : List (String × List SumSig)) (b : Bool) :
    (summary contains nvary pta b).total = (summary contains nvary pta b).varying + (summary contains nvary pta b).fixed ∧
    (summary contains nvary pta b).varying = nvary ∧ (summary contains nvary pta b).pulsars = pta.length := ⟨rfl, rfl, rfl⟩

/-- The Constants held by the signals of a model, with repetitions. -/
def constsOf (pta : List (String × List SumSig)) : List Nat :=
  pta.flatMap fun sc => sc.2.flatMap fun s => s.entries.filterMap fun e => match e with
    | .const i => some i
    | .par _ _ => none

theorem fixedOf_eq (s : SumSig) : fixedOf s = (s.entries.filterMap fun e => match e with
    | .const i => some i
    | .par _ _ => none).length := by
  unfold fixedOf
  induction s.entries with
  | nil => rfl
  | cons e t ih => cases e <;> simp [ih]

theorem fixed_eq (contains : String → String → Bool) (nvary : Nat) (pta : List (String × List SumSig)) :
    (summary contains nvary pta true).fixed = (constsOf pta).length := by
  unfold summary constsOf
  simp only [if_true]
  induction pta with
  | nil => rfl
  | cons sc t ih =>
    rw [List.map_cons, List.sum_cons, ih, List.flatMap_cons, List.length_append]
    congr 1
    induction sc.2 with
    | nil => rfl
    | cons s u ihu => rw [List.map_cons, List.sum_cons, ihu, List.flatMap_cons, List.length_append, fixedOf_eq]

/-- C76 (partial): with `include_params` and no Constant held by two signals, `Fixed` is the number of
different Constants in the model: `l` lists them without repetition.  Missing:
`include_params=False` (`C76_without_params_false`) and shared Constants
(`C76_shared_false`). -/
theorem C76_fixed_partial (contains : String → String → Bool) (nvary : Nat) (pta : List (String × List SumSig))
    (h : (constsOf pta).Nodup) (l : List Nat) (hl : l.Nodup) (hm : ∀ i, i ∈ l ↔ i ∈ constsOf pta) :
    (summary contains nvary pta true).fixed = l.length := by
  rw [fixed_eq]
  exact ((List.perm_ext_iff_of_nodup h hl).2 fun i => (hm i).symm).length_eq

/-- C76 is false without `include_params`: no Constant is counted. -/
theorem C76_without_params_false (contains : String → String → Bool) (nvary : Nat) (pta : List (String × List SumSig)) :
    (summary contains nvary pta false).fixed = 0 ∧ (summary contains nvary pta false).total = nvary := ⟨rfl, rfl⟩

/-- C76 is false for a Constant shared by two pulsars: it is counted twice. -/
theorem C76_shared_false (contains : String → String → Bool) :
    (summary contains 0 [("A", [⟨[], [.const 0]⟩]), ("B", [⟨[], [.const 0]⟩])] true).fixed = 2 := rfl

/-- C76: `Common params` counts, for every pulsar and signal, the parameter names that do not contain
the pulsar's name: a parameter shared by all of `n` pulsars counts `n` times. -/
theorem C76_common (contains : String → String → Bool) (nvary : Nat) (psrs : List String) (n : String) (b : Bool)
    (h : ∀ p ∈ psrs, contains p n = false) :
    (summary contains nvary (psrs.map fun p => (p, [⟨[n], []⟩])) b).common = psrs.length := by
  unfold summary
  simp only
  induction psrs with
  | nil => rfl
  | cons a t ih =>
    have := ih fun p hp => h p (by simp [hp])
    simp only [List.map_cons, List.sum_cons, List.length_cons] at this ⊢
    rw [this]
    simp [h a (by simp)]
    omega

example : summary (fun _ _ => false) 3 [("A", [⟨["A_x"], [.par "A_x" [], .const 0]⟩]), ("B", [⟨["gw"], [.const 1]⟩])] true =
    ⟨5, 3, 2, 2, 2⟩ := by decide +kernel

end Verif.Params
