import Verif.Model.Params
import Verif.Lemmas.Dict
import Mathlib.Algebra.BigOperators.Group.List.Lemmas
import Mathlib.Algebra.Order.Ring.Rat

/-!
# Properties C38 to C41: parameter lists, vectors, priors
-/

set_option linter.unusedSectionVars false

namespace Verif.Params

open Verif

/-! ## C38: the parameter list -/

theorem mem_dedupId_of (l : List Par) : ∀ p ∈ dedupId l, p ∈ l := by
  induction l with
  | nil => simp [dedupId]
  | cons a t ih =>
    intro p hp
    simp only [dedupId, List.mem_cons, List.mem_filter] at hp
    rcases hp with rfl | ⟨h, _⟩
    · simp
    · exact List.mem_cons_of_mem _ (ih p h)

theorem dedupId_id (l : List Par) : ∀ p ∈ l, ∃ q ∈ dedupId l, q.id = p.id := by
  induction l with
  | nil => simp
  | cons a t ih =>
    intro p hp
    by_cases h : p.id = a.id
    · exact ⟨a, by simp [dedupId], h.symm⟩
    · rcases List.mem_cons.1 hp with rfl | hp
      · exact absurd rfl h
      · obtain ⟨q, hq, e⟩ := ih p hp
        refine ⟨q, ?_, e⟩
        simp only [dedupId, List.mem_cons, List.mem_filter, decide_eq_true_eq, ne_eq]
        right
        exact ⟨hq, by rw [e]; exact h⟩

theorem nodup_dedupId (l : List Par) : ((dedupId l).map Par.id).Nodup := by
  induction l with
  | nil => simp [dedupId]
  | cons a t ih =>
    simp only [dedupId, List.map_cons, List.nodup_cons]
    constructor
    · intro h
      obtain ⟨q, hq, e⟩ := List.mem_map.1 h
      simp only [List.mem_filter, decide_eq_true_eq, ne_eq] at hq
      exact hq.2 e
    · exact ih.sublist (List.Sublist.map _ List.filter_sublist)

/-- Objects with the same identity are the same. -/
def Coherent (l : List Par) : Prop := ∀ p ∈ l, ∀ q ∈ l, p.id = q.id → p = q

theorem mem_dedupId {l : List Par} (h : Coherent l) (p : Par) : p ∈ dedupId l ↔ p ∈ l := by
  refine ⟨mem_dedupId_of l p, fun hp => ?_⟩
  obtain ⟨q, hq, e⟩ := dedupId_id l p hp
  rw [← h q (mem_dedupId_of l q hq) p hp e]
  exact hq

theorem mem_sortByName (l : List Par) (p : Par) : p ∈ sortByName l ↔ p ∈ l :=
  (List.perm_insertionSort _ l).mem_iff

instance : Std.Total (fun p q : Par => p.name ≤ q.name) := ⟨fun p q => le_total p.name q.name⟩
instance : IsTrans Par (fun p q : Par => p.name ≤ q.name) := ⟨fun _ _ _ h h' => le_trans h h'⟩

theorem sorted_sortByName (l : List Par) : (sortByName l).Pairwise fun p q => p.name ≤ q.name :=
  List.pairwise_insertionSort _ l

theorem nodup_sortByName {l : List Par} (h : l.Nodup) : (sortByName l).Nodup :=
  (List.perm_insertionSort _ l).nodup_iff.2 h

/-- Every parameter of the model: those of the signals and everything below them. -/
def reach (pta : Pta) : List Par := pta.flatMap fun sc => sc.flatMap fun sig => sig.flatMap Par.params

mutual
theorem self_mem_params (p : Par) : p ∈ p.params := by
  match p with
  | .mk i n s hs => rw [Par.params]; simp
end

theorem mem_scParams {ord : List Par → List Par} (ho : ∀ l, (ord l).Perm l) (sc : SC) (h : Coherent (sc.flatMap id))
    (p : Par) : p ∈ scParams ord sc ↔ p ∈ sc.flatMap id := by
  unfold scParams
  rw [mem_sortByName, (ho _).mem_iff, mem_dedupId h]

theorem reach_of_sig {pta : Pta} {sc : SC} (hsc : sc ∈ pta) {p : Par} (hp : p ∈ sc.flatMap id) :
    ∀ q ∈ p.params, q ∈ reach pta := by
  intro q hq
  obtain ⟨sig, hs, hp'⟩ := List.mem_flatMap.1 hp
  exact List.mem_flatMap.2 ⟨sc, hsc, List.mem_flatMap.2 ⟨sig, hs, List.mem_flatMap.2 ⟨p, hp', hq⟩⟩⟩

theorem mem_union {ord : List Par → List Par} (ho : ∀ l, (ord l).Perm l) (pta : Pta) (h : Coherent (reach pta)) (p : Par) :
    p ∈ (pta.flatMap fun sc => (scParams ord sc).flatMap Par.params) ↔ p ∈ reach pta := by
  have hc : ∀ sc ∈ pta, Coherent (sc.flatMap id) := fun sc hsc a ha b hb e =>
    h a (reach_of_sig hsc ha a (self_mem_params a)) b (reach_of_sig hsc hb b (self_mem_params b)) e
  constructor
  · intro hp
    obtain ⟨sc, hsc, hp'⟩ := List.mem_flatMap.1 hp
    obtain ⟨q, hq, hpq⟩ := List.mem_flatMap.1 hp'
    exact reach_of_sig hsc ((mem_scParams ho sc (hc sc hsc) q).1 hq) p hpq
  · intro hp
    obtain ⟨sc, hsc, hp'⟩ := List.mem_flatMap.1 hp
    obtain ⟨sig, hsig, hp2⟩ := List.mem_flatMap.1 hp'
    obtain ⟨q, hq, hpq⟩ := List.mem_flatMap.1 hp2
    exact List.mem_flatMap.2 ⟨sc, hsc, List.mem_flatMap.2 ⟨q,
      (mem_scParams ho sc (hc sc hsc) q).2 (List.mem_flatMap.2 ⟨sig, hsig, hq⟩), hpq⟩⟩

/-- C38: `PTA.params` lists every parameter of the model, hyperparameters included, exactly once,
sorted by name, whatever the order in which Python traverses its sets. -/
theorem C38_params (ord : List Par → List Par) (ho : ∀ l, (ord l).Perm l) (pta : Pta) (h : Coherent (reach pta)) :
    (∀ p, p ∈ ptaParams ord pta ↔ p ∈ reach pta) ∧ (ptaParams ord pta).Nodup ∧
      (ptaParams ord pta).Pairwise fun p q => p.name ≤ q.name := by
  have hc' : Coherent (pta.flatMap fun sc => (scParams ord sc).flatMap Par.params) := fun a ha b hb e =>
    h a ((mem_union ho pta h a).1 ha) b ((mem_union ho pta h b).1 hb) e
  refine ⟨fun p => ?_, ?_, sorted_sortByName _⟩
  · unfold ptaParams
    rw [mem_sortByName, (ho _).mem_iff, mem_dedupId hc', mem_union ho pta h]
  · apply nodup_sortByName
    rw [(ho _).nodup_iff]
    exact (nodup_dedupId _).of_map

/-- C38: if names are unique, the list depends only on which parameters the model has: not on the
order of pulsars or signals, on repetitions, or on how Python traverses sets. -/
theorem C38_canonical (ord ord' : List Par → List Par) (ho : ∀ l, (ord l).Perm l) (ho' : ∀ l, (ord' l).Perm l)
    (pta pta' : Pta) (hname : ∀ p ∈ reach pta, ∀ q ∈ reach pta, p.name = q.name → p = q)
    (hid : Coherent (reach pta)) (hsame : ∀ p, p ∈ reach pta ↔ p ∈ reach pta') :
    ptaParams ord pta = ptaParams ord' pta' ∧ paramNames (ptaParams ord pta) = paramNames (ptaParams ord' pta') := by
  have hid' : Coherent (reach pta') := fun a ha b hb e => hid a ((hsame a).2 ha) b ((hsame b).2 hb) e
  obtain ⟨m1, n1, s1⟩ := C38_params ord ho pta hid
  obtain ⟨m2, n2, s2⟩ := C38_params ord' ho' pta' hid'
  have hp : (ptaParams ord pta).Perm (ptaParams ord' pta') :=
    (List.perm_ext_iff_of_nodup n1 n2).2 fun p => by rw [m1, m2, hsame]
  have e : ptaParams ord pta = ptaParams ord' pta' :=
    List.Perm.eq_of_pairwise (le := fun p q : Par => p.name ≤ q.name)
      (fun a b ha hb h1 h2 => hname a ((m1 a).1 ha) b ((hsame b).2 ((m2 b).1 hb)) (le_antisymm h1 h2)) s1 s2 hp
  exact ⟨e, by rw [e]⟩

/-- C38: reordering the pulsars, and the signals within each pulsar, does not change the list. -/
theorem C38_reorder (ord ord' : List Par → List Par) (ho : ∀ l, (ord l).Perm l) (ho' : ∀ l, (ord' l).Perm l)
    (pta mid pta' : Pta) (h1 : pta.Perm mid) (h2 : List.Forall₂ (fun a b : SC => a.Perm b) mid pta')
    (hname : ∀ p ∈ reach pta, ∀ q ∈ reach pta, p.name = q.name → p = q) (hid : Coherent (reach pta)) :
    ptaParams ord pta = ptaParams ord' pta' := by
  refine (C38_canonical ord ord' ho ho' pta pta' hname hid fun p => ?_).1
  unfold reach
  rw [(List.Perm.flatMap_right (fun sc : SC => sc.flatMap fun sig => sig.flatMap Par.params) h1).mem_iff]
  clear h1 hname hid
  induction h2 with
  | nil => rfl
  | cons hab _ ih =>
    rw [List.flatMap_cons, List.flatMap_cons, List.mem_append, List.mem_append, ih,
      (List.Perm.flatMap_right (fun sig : Sig => sig.flatMap Par.params) hab).mem_iff]

theorem hypers_sub_params (p : Par) : ∀ h ∈ p.hypers, ∀ q ∈ h.params, q ∈ p.params := by
  cases p with
  | mk i n s hs =>
    intro h hh q hq
    rw [Par.params]
    apply List.mem_cons_of_mem
    simp only [Par.hypers] at hh
    clear i n s
    induction hs with
    | nil => simp at hh
    | cons a t ih =>
      rw [paramsAll]
      rcases List.mem_cons.1 hh with rfl | hh
      · exact List.mem_append_left _ hq
      · exact List.mem_append_right _ (ih hh)

mutual
theorem params_trans (p : Par) : ∀ q ∈ p.params, ∀ r ∈ q.params, r ∈ p.params := by
  match p with
  | .mk i n s hs =>
    intro q hq r hr
    rw [Par.params] at hq ⊢
    rcases List.mem_cons.1 hq with rfl | hq
    · rw [Par.params] at hr; exact hr
    · exact List.mem_cons_of_mem _ (paramsAll_trans hs q hq r hr)
theorem paramsAll_trans (l : List Par) : ∀ q ∈ paramsAll l, ∀ r ∈ q.params, r ∈ paramsAll l := by
  match l with
  | [] => intro q hq; rw [paramsAll] at hq; simp at hq
  | h :: t =>
    intro q hq r hr
    rw [paramsAll] at hq ⊢
    rcases List.mem_append.1 hq with hq | hq
    · exact List.mem_append_left _ (params_trans h q hq r hr)
    · exact List.mem_append_right _ (paramsAll_trans t q hq r hr)
end

/-- Every hyperparameter of a listed parameter is listed. -/
def Closed (ps : List Par) : Prop := ∀ p ∈ ps, ∀ h ∈ p.hypers, h ∈ ps

/-- C38: the list is closed under hyperparameters. -/
theorem C38_closed (ord : List Par → List Par) (ho : ∀ l, (ord l).Perm l) (pta : Pta) (hid : Coherent (reach pta)) :
    Closed (ptaParams ord pta) := by
  intro p hp h hh
  have hm := (C38_params ord ho pta hid).1
  rw [hm] at hp ⊢
  obtain ⟨sc, hsc, hp'⟩ := List.mem_flatMap.1 hp
  obtain ⟨sig, hsig, hp2⟩ := List.mem_flatMap.1 hp'
  obtain ⟨q, hq, hpq⟩ := List.mem_flatMap.1 hp2
  exact List.mem_flatMap.2 ⟨sc, hsc, List.mem_flatMap.2 ⟨sig, hsig, List.mem_flatMap.2 ⟨q, hq,
    params_trans q p hpq h (hypers_sub_params p h hh h (self_mem_params h))⟩⟩⟩

theorem names_length (p : Par) : p.names.length = p.width := by
  unfold Par.names Par.width
  split <;> simp

/-- Number of scalar components. -/
def total (ps : List Par) : Nat := (ps.map Par.width).sum

/-- C38: `param_names` has one entry per scalar component, those of a vector of size `n` being
`name_0, ..., name_(n-1)` in order at the parameter's place. -/
theorem C38_names (pre post : List Par) (p : Par) :
    (paramNames (pre ++ p :: post)).length = total pre + p.width + total post ∧
    (∀ n, p.size = some n → 0 < n → ∀ j, j < n →
      (paramNames (pre ++ p :: post))[total pre + j]? = some (p.name ++ "_" ++ toString j)) ∧
    (p.size = none ∨ p.size = some 0 → (paramNames (pre ++ p :: post))[total pre]? = some p.name) := by
  have hlen : ∀ l : List Par, (paramNames l).length = total l := by
    intro l
    induction l with
    | nil => rfl
    | cons a t ih =>
      rw [paramNames, List.flatMap_cons, List.length_append, names_length]
      rw [paramNames] at ih
      rw [ih]; rfl
  have hsplit : paramNames (pre ++ p :: post) = paramNames pre ++ (p.names ++ paramNames post) := by
    simp [paramNames]
  refine ⟨?_, ?_, ?_⟩
  · rw [hsplit, List.length_append, List.length_append, hlen, hlen, names_length]; omega
  · intro n hn hpos j hj
    rw [hsplit, List.getElem?_append_right (by rw [hlen]; omega), hlen, Nat.add_sub_cancel_left]
    obtain ⟨m, rfl⟩ : ∃ m, n = m + 1 := ⟨n - 1, by omega⟩
    have : p.names = (List.range (m + 1)).map fun i => p.name ++ "_" ++ fmt i := by
      unfold Par.names; rw [hn]
    rw [List.getElem?_append_left (by rw [this]; simpa using hj), this, List.getElem?_map,
      List.getElem?_range hj]
    rfl
  · intro h
    rw [hsplit, List.getElem?_append_right (by rw [hlen]), hlen, Nat.sub_self]
    have : p.names = [p.name] := by
      unfold Par.names
      rcases h with h | h <;> rw [h]
    rw [this]; rfl

/-- Two pulsars sharing a hierarchical parameter. -/
example :
    let h := Par.mk 0 "mu" none []
    let c := Par.mk 1 "gw" (some 2) [h]
    let a := Par.mk 2 "A_rn" none []
    let b := Par.mk 3 "B_rn" none []
    paramNames (ptaParams id [[[a], [c]], [[c], [b]]]) = ["A_rn", "B_rn", "gw_0", "gw_1", "mu"] ∧
    paramNames (ptaParams List.reverse [[[b], [c]], [[c], [a]]]) = ["A_rn", "B_rn", "gw_0", "gw_1", "mu"] := by
  decide +kernel

/-- C38 needs unique names: two objects with the same name are both listed, and their order depends
on how Python traverses the set. -/
theorem C38_same_name_ambiguous :
    let a := Par.mk 0 "gw" none []
    let b := Par.mk 1 "gw" (some 2) []
    paramNames (ptaParams id [[[a]], [[b]]]) = ["gw", "gw_0", "gw_1"] ∧
    paramNames (ptaParams List.reverse [[[a]], [[b]]]) = ["gw_0", "gw_1", "gw"] := by
  decide +kernel

/-! ## C39: vectors and dictionaries -/

section
variable {K : Type}

theorem width_pos (p : Par) : 0 < p.width := by
  unfold Par.width; split <;> omega

theorem slice_ok (xs : List K) (ct n : Nat) (hn : 0 < n) (h : ct + n ≤ xs.length) :
    ∃ v, slice xs ct n = .ok v ∧ v.entries = (xs.drop ct).take n ∧ (n = 1 ↔ ∃ x, v = .num x) := by
  unfold slice
  by_cases h1 : n > 1
  · rw [if_pos h1]
    refine ⟨_, rfl, rfl, ?_⟩
    constructor
    · intro h2; omega
    · rintro ⟨x, hx⟩; cases hx
  · rw [if_neg h1]
    have hc : ct < xs.length := by omega
    rw [List.getElem?_eq_getElem hc]
    have h1' : n = 1 := by omega
    subst h1'
    refine ⟨_, rfl, ?_, by simp⟩
    rw [List.drop_eq_getElem_cons hc]; rfl

theorem total_cons (p : Par) (t : List Par) : total (p :: t) = p.width + total t := by simp [total]
theorem total_append (a b : List Par) : total (a ++ b) = total a + total b := by simp [total]

theorem mapLoop_ok (ps : List Par) : ∀ (ct : Nat) (xs : List K) (d : Dict String (Value K)),
    ct + total ps ≤ xs.length → (d.map Prod.fst ++ ps.map Par.name).Nodup →
    ∃ e, mapLoop ps ct xs d = .ok (d ++ e) ∧ e.map Prod.fst = ps.map Par.name ∧
      (e.flatMap fun kv => kv.2.entries) = (xs.drop ct).take (total ps) ∧
      ∀ pre p post, ps = pre ++ p :: post → ∃ v, (p.name, v) ∈ e ∧
        v.entries = (xs.drop (ct + total pre)).take p.width ∧ (p.width = 1 ↔ ∃ x, v = .num x) := by
  induction ps with
  | nil =>
    intro ct xs d _ _
    refine ⟨[], by simp [mapLoop], rfl, by simp [total], ?_⟩
    intro pre p post h; simp at h
  | cons a t ih =>
    intro ct xs d hl hn
    rw [total_cons] at hl
    obtain ⟨v, hv, he, hs⟩ := slice_ok xs ct a.width (width_pos a) (by omega)
    have hfresh : a.name ∉ d.map Prod.fst := by
      intro hm
      exact (List.nodup_append.1 hn).2.2 _ hm a.name (by simp) rfl
    rw [mapLoop, hv]
    simp only
    rw [Dict.set_of_not_mem v hfresh]
    have hn' : ((d ++ [(a.name, v)]).map Prod.fst ++ t.map Par.name).Nodup := by
      simpa using hn
    obtain ⟨e, h1, h2, h3, h4⟩ := ih (ct + a.width) xs (d ++ [(a.name, v)]) (by omega) hn'
    refine ⟨(a.name, v) :: e, by rw [h1]; simp, by simp [h2], ?_, ?_⟩
    · rw [List.flatMap_cons, h3, he, total_cons, List.take_add, List.drop_drop]
    · intro pre p post heq
      cases pre with
      | nil =>
        simp only [List.nil_append, List.cons.injEq] at heq
        obtain ⟨rfl, rfl⟩ := heq
        exact ⟨v, by simp, by simpa [total] using he, hs⟩
      | cons b pre' =>
        simp only [List.cons_append, List.cons.injEq] at heq
        obtain ⟨rfl, rfl⟩ := heq
        obtain ⟨w, hw1, hw2, hw3⟩ := h4 pre' p post rfl
        refine ⟨w, by simp [hw1], ?_, hw3⟩
        rw [hw2, total_cons, Nat.add_assoc]

/-- The entries a dictionary holds for a parameter. -/
def entriesOf (d : Dict String (Value K)) (p : Par) : List K :=
  match Dict.get? d p.name with
  | some v => v.entries
  | none => []

/-- C39: a vector with one entry per element of `param_names` is mapped to a dictionary with exactly
the parameters as keys, in order; component `j` of a parameter gets the entry at the position that
`param_names` gives to that component (`C38_names`); a parameter is a float iff it has one
component; and reading the dictionary in parameter order gives the vector back. -/
theorem C39_map_params (ps : List Par) (xs : List K) (hn : (ps.map Par.name).Nodup)
    (hl : xs.length = (paramNames ps).length) :
    ∃ d, mapParams ps xs = .ok d ∧ d.map Prod.fst = ps.map Par.name ∧
      (∀ pre p post, ps = pre ++ p :: post → (entriesOf d p).length = p.width ∧
        (∀ j, j < p.width → (entriesOf d p)[j]? = xs[(paramNames pre).length + j]?) ∧
        (p.width = 1 ↔ ∃ x, Dict.get? d p.name = some (.num x))) ∧
      ps.flatMap (entriesOf d) = xs := by
  have hlen : ∀ l : List Par, (paramNames l).length = total l := by
    intro l
    induction l with
    | nil => rfl
    | cons a t ih =>
      rw [paramNames, List.flatMap_cons, List.length_append, names_length]
      rw [paramNames] at ih
      rw [ih]; rfl
  rw [hlen] at hl
  obtain ⟨e, h1, h2, h3, h4⟩ := mapLoop_ok ps 0 xs [] (by omega) (by simpa using hn)
  simp only [List.nil_append, List.drop_zero, Nat.zero_add] at h1 h3 h4
  have hget : ∀ n v, (n, v) ∈ e → Dict.get? e n = some v := fun n v hm => Dict.get?_of_mem (by rw [h2]; exact hn) hm
  refine ⟨e, h1, h2, ?_, ?_⟩
  · intro pre p post heq
    obtain ⟨v, hv1, hv2, hv3⟩ := h4 pre p post heq
    have hg := hget _ _ hv1
    have he : entriesOf e p = (xs.drop (total pre)).take p.width := by
      unfold entriesOf; rw [hg]; exact hv2
    have htot : total pre + p.width ≤ xs.length := by
      rw [hl, heq, total_append, total_cons]; omega
    refine ⟨?_, ?_, ?_⟩
    · rw [he, List.length_take, List.length_drop]; omega
    · intro j hj
      rw [he, hlen, List.getElem?_take_of_lt hj, List.getElem?_drop]
    · rw [hv3, hg]; simp
  · have : ps.flatMap (entriesOf e) = e.flatMap fun kv => kv.2.entries := by
      have hkv : ∀ l : Dict String (Value K), (∀ kv ∈ l, kv ∈ e) → ∀ qs : List Par, l.map Prod.fst = qs.map Par.name →
          qs.flatMap (entriesOf e) = l.flatMap fun kv => kv.2.entries := by
        intro l
        induction l with
        | nil => intro _ qs h; cases qs with
          | nil => rfl
          | cons => simp at h
        | cons kv t ih => intro hm qs h; cases qs with
          | nil => simp at h
          | cons q qt =>
            simp only [List.map_cons, List.cons.injEq] at h
            rw [List.flatMap_cons, List.flatMap_cons, ih (fun kv' h' => hm kv' (by simp [h'])) qt h.2]
            congr 1
            have := hget kv.1 kv.2 (hm kv (by simp))
            unfold entriesOf
            rw [← h.1, this]
      exact hkv e (fun _ h => h) ps h2
    rw [this, h3, ← hl, List.take_length]

example : mapParams [.mk 0 "a" none [], .mk 1 "b" (some 3) [], .mk 2 "c" (some 1) []] [10, 20, 30, 40, 50] =
    .ok [("a", .num 10), ("b", .vec [20, 30, 40]), ("c", .num 50)] := by decide +kernel

theorem slice_append (xs ys : List K) (ct n : Nat) (hn : 0 < n) (h : ct + n ≤ xs.length) :
    slice (xs ++ ys) ct n = slice xs ct n := by
  unfold slice
  split
  · rw [List.drop_append_of_le_length (by omega), List.take_append_of_le_length (by rw [List.length_drop]; omega)]
  · rw [List.getElem?_append_left (by omega)]

/-- C39: entries beyond `param_names` are ignored. -/
theorem C39_extra_ignored (ps : List Par) (xs ys : List K) (h : (paramNames ps).length ≤ xs.length) :
    mapParams ps (xs ++ ys) = mapParams ps xs := by
  have hlen : ∀ l : List Par, (paramNames l).length = total l := by
    intro l
    induction l with
    | nil => rfl
    | cons a t ih =>
      rw [paramNames, List.flatMap_cons, List.length_append, names_length]
      rw [paramNames] at ih
      rw [ih]; rfl
  rw [hlen] at h
  have : ∀ (l : List Par) (ct : Nat) (d : Dict String (Value K)), ct + total l ≤ xs.length →
      mapLoop l ct (xs ++ ys) d = mapLoop l ct xs d := by
    intro l
    induction l with
    | nil => intro ct d _; rfl
    | cons a t ih =>
      intro ct d hc
      rw [total_cons] at hc
      rw [mapLoop, mapLoop, slice_append xs ys ct a.width (width_pos a) (by omega)]
      cases slice xs ct a.width with
      | error e => rfl
      | ok v => exact ih _ _ (by omega)
  exact this ps 0 [] (by omega)

/-- C39 (partial): a vector that is too short is rejected with `IndexError` if the last parameter in
the list is a scalar.  Missing: lists that end with a vector parameter (`C39_short_false`). -/
theorem C39_short_partial (pre : List Par) (p : Par) (xs : List K) (hp : p.width = 1)
    (h : xs.length < (paramNames (pre ++ [p])).length) : mapParams (pre ++ [p]) xs = .error .indexError := by
  have hlen : (paramNames (pre ++ [p])).length = total pre + 1 := by
    have := (C38_names pre [] p).1
    rw [this, hp]; simp [total]
  rw [hlen] at h
  have : ∀ (l : List Par) (ct : Nat) (d : Dict String (Value K)), xs.length < ct + total l + 1 →
      mapLoop (l ++ [p]) ct xs d = .error .indexError := by
    intro l
    induction l with
    | nil =>
      intro ct d hc
      have hs : slice xs ct p.width = .error .indexError := by
        unfold slice
        rw [hp, if_neg (by omega), List.getElem?_eq_none (by simp [total] at hc; omega)]
      rw [List.nil_append, mapLoop, hs]
    | cons a t ih =>
      intro ct d hc
      rw [total_cons] at hc
      rw [List.cons_append, mapLoop]
      have hsl : slice xs ct a.width = .error .indexError ∨ ∃ v, slice xs ct a.width = .ok v := by
        unfold slice
        split
        · exact Or.inr ⟨_, rfl⟩
        · split
          · exact Or.inr ⟨_, rfl⟩
          · exact Or.inl rfl
      rcases hsl with hs | ⟨v, hs⟩
      · rw [hs]
      · rw [hs]; exact ih _ _ (by omega)
  exact this pre 0 [] (by omega)

/-- C39: too-short vectors are not rejected if the last parameter is a vector: it silently gets fewer
components. -/
theorem C39_short_false : mapParams [.mk 0 "a" none [], .mk 1 "b" (some 3) []] [1, 2] =
    .ok [("a", .num 1), ("b", .vec [2])] ∧
    (paramNames [.mk 0 "a" none [], .mk 1 "b" (some 3) []]).length = 4 := by decide +kernel

/-! ## C40: the log prior -/

/-- The value a dictionary holds for a parameter (0-dimensional default never used below). -/
def valOf [Zero K] (d : Dict String (Value K)) (p : Par) : Value K := (Dict.get? d p.name).getD (.num 0)

variable [AddCommMonoid K]

/-- All parameters present. -/
def Covers (d : Dict String (Value K)) (ps : List Par) : Prop := ∀ p ∈ ps, (Dict.get? d p.name).isSome = true

theorem hyperValues_ok (d : Dict String (Value K)) (hs : List Par) (h : Covers d hs) :
    hyperValues d hs = .ok (hs.map (valOf d)) := by
  induction hs with
  | nil => rfl
  | cons a t ih =>
    obtain ⟨v, hv⟩ := Option.isSome_iff_exists.1 (h a (by simp))
    have e : look d a.name .typeError = .ok v := by unfold look; rw [hv]
    rw [hyperValues, e, ih fun p hp => h p (by simp [hp])]
    simp [valOf, hv]

/-- The log density of one parameter, all components, with the values of a dictionary. -/
def logDensity (π : Priors K) (d : Dict String (Value K)) (p : Par) : K :=
  ((entriesOf d p).zipIdx.map fun xj => π.logp p xj.2 xj.1 (p.hypers.map (valOf d))).sum

theorem getLogpdf_ok (π : Priors K) (d : Dict String (Value K)) (ps : List Par) (hc : Closed ps) (h : Covers d ps)
    (p : Par) (hp : p ∈ ps) : getLogpdf π d p = .ok (logDensity π d p) := by
  obtain ⟨v, hv⟩ := Option.isSome_iff_exists.1 (h p hp)
  have e : look d p.name .keyError = .ok v := by unfold look; rw [hv]
  unfold getLogpdf
  rw [e]
  simp only
  rw [hyperValues_ok d p.hypers fun q hq => h q (hc p hp q hq)]
  simp only
  unfold logDensity entriesOf
  rw [hv]

theorem sumLogpdf_ok (π : Priors K) (d : Dict String (Value K)) (ps : List Par) (hc : Closed ps) (h : Covers d ps)
    (l : List Par) (hl : ∀ p ∈ l, p ∈ ps) : sumLogpdf π d l = .ok (l.map (logDensity π d)).sum := by
  induction l with
  | nil => rfl
  | cons a t ih =>
    rw [sumLogpdf, getLogpdf_ok π d ps hc h a (hl a (by simp)), ih fun p hp => hl p (by simp [hp])]
    simp

/-- C40: for a dictionary with a value for every parameter of the model the log prior is the sum, over
all parameters and components, of the log density at the given value, hyperparameters being
taken from the same dictionary. -/
theorem C40_dict (π : Priors K) (ps : List Par) (hc : Closed ps) (d : Dict String (Value K)) (h : Covers d ps) :
    getLnprior π ps (.dict d) = .ok (ps.map (logDensity π d)).sum :=
  sumLogpdf_ok π d ps hc h ps fun _ h => h

/-- C40: for a vector it is the same as for the dictionary that `map_params` makes of it, and the sum
is over the entries of the vector. -/
theorem C40_vector (π : Priors K) (ps : List Par) (hc : Closed ps) (hn : (ps.map Par.name).Nodup) (xs : List K)
    (hl : xs.length = (paramNames ps).length) :
    ∃ d, mapParams ps xs = .ok d ∧ getLnprior π ps (.vec xs) = getLnprior π ps (.dict d) ∧
      getLnprior π ps (.vec xs) = .ok (ps.map (logDensity π d)).sum ∧ ps.flatMap (entriesOf d) = xs := by
  obtain ⟨d, h1, h2, h3, h4⟩ := C39_map_params ps xs hn hl
  have hcov : Covers d ps := by
    intro p hp
    rw [Option.isSome_iff_ne_none]
    intro hnone
    rw [Dict.get?_eq_none_iff] at hnone
    exact hnone (by rw [h2]; exact List.mem_map_of_mem hp)
  have e : getLnprior π ps (.vec xs) = getLnprior π ps (.dict d) := by
    show (match mapParams ps xs with | .error e => Except.error e | .ok d => sumLogpdf π d ps) = sumLogpdf π d ps
    rw [h1]
  exact ⟨d, h1, e, by rw [e]; exact C40_dict π ps hc d hcov, h4⟩

/-- C40: only the values of the model's parameters matter. -/
theorem C40_only_parameters (π : Priors K) (ps : List Par) (hc : Closed ps) (d d' : Dict String (Value K))
    (h : ∀ p ∈ ps, Dict.get? d p.name = Dict.get? d' p.name) :
    getLnprior π ps (.dict d) = getLnprior π ps (.dict d') := by
  have hh : ∀ l : List Par, (∀ p ∈ l, p ∈ ps) → hyperValues d l = hyperValues d' l := by
    intro l
    induction l with
    | nil => intro _; rfl
    | cons a t ih =>
      intro hl
      have : look d a.name .typeError = look d' a.name .typeError := by unfold look; rw [h a (hl a (by simp))]
      rw [hyperValues, hyperValues, this, ih fun p hp => hl p (by simp [hp])]
  have hg : ∀ p ∈ ps, getLogpdf π d p = getLogpdf π d' p := by
    intro p hp
    have : look d p.name .keyError = look d' p.name .keyError := by unfold look; rw [h p hp]
    unfold getLogpdf
    rw [this, hh p.hypers fun q hq => hc p hp q hq]
  have hs : ∀ l : List Par, (∀ p ∈ l, p ∈ ps) → sumLogpdf π d l = sumLogpdf π d' l := by
    intro l
    induction l with
    | nil => intro _; rfl
    | cons a t ih =>
      intro hl
      rw [sumLogpdf, sumLogpdf, hg a (hl a (by simp)), ih fun p hp => hl p (by simp [hp])]
  exact hs ps fun _ h => h

/-- C40: a dictionary without one of the parameters is an error. -/
theorem C40_missing (π : Priors K) (ps : List Par) (d : Dict String (Value K)) (p : Par) (hp : p ∈ ps)
    (h : Dict.get? d p.name = none) : ∃ e, getLnprior π ps (.dict d) = .error e := by
  have hg : getLogpdf π d p = .error .keyError := by
    have : look d p.name .keyError = .error .keyError := by unfold look; rw [h]
    unfold getLogpdf; rw [this]
  have hs : ∀ l : List Par, p ∈ l → ∃ e, sumLogpdf π d l = .error e := by
    intro l
    induction l with
    | nil => intro h; simp at h
    | cons a t ih =>
      intro hm
      rw [sumLogpdf]
      rcases List.mem_cons.1 hm with rfl | hm
      · rw [hg]; exact ⟨_, rfl⟩
      · obtain ⟨e, he⟩ := ih hm
        cases getLogpdf π d a with
        | error e' => exact ⟨e', rfl⟩
        | ok x => rw [he]; exact ⟨e, rfl⟩
  exact hs ps hp

/-- C40: for a whole model (`PTA.params`) the value does not depend on the order of pulsars and
signals or on set traversal. -/
theorem C40_canonical (π : Priors K) (ord ord' : List Par → List Par) (ho : ∀ l, (ord l).Perm l)
    (ho' : ∀ l, (ord' l).Perm l) (pta pta' : Pta) (hid : Coherent (reach pta))
    (hsame : ∀ p, p ∈ reach pta ↔ p ∈ reach pta') (d : Dict String (Value K)) (h : Covers d (reach pta)) :
    getLnprior π (ptaParams ord pta) (.dict d) = getLnprior π (ptaParams ord' pta') (.dict d) := by
  have hid' : Coherent (reach pta') := fun a ha b hb e => hid a ((hsame a).2 ha) b ((hsame b).2 hb) e
  obtain ⟨m1, n1, _⟩ := C38_params ord ho pta hid
  obtain ⟨m2, n2, _⟩ := C38_params ord' ho' pta' hid'
  have hp : (ptaParams ord pta).Perm (ptaParams ord' pta') :=
    (List.perm_ext_iff_of_nodup n1 n2).2 fun p => by rw [m1, m2, hsame]
  rw [C40_dict π _ (C38_closed ord ho pta hid) d fun p hp => h p ((m1 p).1 hp),
    C40_dict π _ (C38_closed ord' ho' pta' hid') d fun p hp => h p ((hsame p).2 ((m2 p).1 hp)),
    (hp.map (logDensity π d)).sum_eq]

end

/-! ## C41: the unit cube -/

section
variable {K : Type} [Zero K]

/-- `ts` is the image of `us` under the prior: every component is the quantile of its entry of `us`,
with the hyperparameters at their *transformed* values. -/
def Transformed (π : Priors K) (ps : List Par) (us ts : List K) : Prop :=
  ∃ d, mapParams ps ts = .ok d ∧ ts.length = us.length ∧
    ∀ pre p post, ps = pre ++ p :: post → ∀ j, j < p.width → ∃ q u,
      π.ppf p = some q ∧ us[(paramNames pre).length + j]? = some u ∧
      ts[(paramNames pre).length + j]? = some (q j u (p.hypers.map (valOf d)))

theorem stackPpf_ok (π : Priors K) (d : Dict String (Value K)) (q : Par → Nat → K → List (Value K) → K) (l : List Par)
    (hq : ∀ p ∈ l, π.ppf p = some (q p)) (hh : ∀ p ∈ l, p.hypers = [])
    (hd : ∀ p ∈ l, ∃ v, Dict.get? d p.name = some v) :
    stackPpf π d l = .ok (l.flatMap fun p => (entriesOf d p).zipIdx.map fun xj => q p xj.2 xj.1 []) := by
  induction l with
  | nil => rfl
  | cons a t ih =>
    obtain ⟨v, hv⟩ := hd a (by simp)
    have e : look d a.name .keyError = .ok v := by unfold look; rw [hv]
    have ha : getPpf π d a = .ok ((entriesOf d a).zipIdx.map fun xj => q a xj.2 xj.1 []) := by
      unfold getPpf entriesOf
      rw [hq a (by simp), e, hh a (by simp), hv]
      rfl
    rw [stackPpf, ha, ih (fun p hp => hq p (by simp [hp])) (fun p hp => hh p (by simp [hp]))
      (fun p hp => hd p (by simp [hp]))]
    rfl

/-- C41 (partial): if no parameter has hyperparameters and all have a quantile function, the transform
maps every component to its quantile, in `param_names` order.  Missing: hierarchical priors
(`C41_hierarchical_false`). -/
theorem C41_transform_partial (π : Priors K) (ps : List Par) (hn : (ps.map Par.name).Nodup) (us : List K)
    (hl : us.length = (paramNames ps).length) (hh : ∀ p ∈ ps, p.hypers = [])
    (hq : ∀ p ∈ ps, (π.ppf p).isSome = true) :
    ∃ ts, hypercube π ps (.vec us) = .ok ts ∧ Transformed π ps us ts := by
  obtain ⟨d, h1, h2, h3, h4⟩ := C39_map_params ps us hn hl
  let q : Par → Nat → K → List (Value K) → K := fun p => (π.ppf p).getD fun _ _ _ => 0
  have hq' : ∀ p ∈ ps, π.ppf p = some (q p) := by
    intro p hp
    obtain ⟨f, hf⟩ := Option.isSome_iff_exists.1 (hq p hp)
    simp [q, hf]
  have hd : ∀ p ∈ ps, ∃ v, Dict.get? d p.name = some v := by
    intro p hp
    rw [← Option.isSome_iff_exists, Option.isSome_iff_ne_none]
    intro hnone
    rw [Dict.get?_eq_none_iff] at hnone
    exact hnone (by rw [h2]; exact List.mem_map_of_mem hp)
  have hst := stackPpf_ok π d q ps hq' hh hd
  have hcube : hypercube π ps (.vec us) = .ok (ps.flatMap fun p => (entriesOf d p).zipIdx.map fun xj => q p xj.2 xj.1 []) := by
    rw [← hst]
    show (match mapParams ps us with | .error e => Except.error e | .ok d => stackPpf π d ps) = _
    rw [h1]
  have hlen : ∀ pre post, ps = pre ++ post →
      (pre.flatMap fun p => (entriesOf d p).zipIdx.map fun xj => q p xj.2 xj.1 []).length = (paramNames pre).length := by
    intro pre
    induction pre using List.reverseRecOn with
    | nil => intro _ _; rfl
    | append_singleton t a ih =>
      intro post heq
      have heq' : ps = t ++ a :: post := by rw [heq]; simp
      have e1 := ih (a :: post) heq'
      have e2 := (h3 t a post heq').1
      simp only [paramNames, List.flatMap_append, List.length_append] at e1 ⊢
      rw [e1]
      simp [e2, names_length]
  have hlt : (ps.flatMap fun p => (entriesOf d p).zipIdx.map fun xj => q p xj.2 xj.1 []).length = us.length := by
    rw [hl, hlen ps [] (by simp)]
  obtain ⟨d', h1', -, -, -⟩ := C39_map_params ps
    (ps.flatMap fun p => (entriesOf d p).zipIdx.map fun xj => q p xj.2 xj.1 []) hn (by rw [hlt, hl])
  refine ⟨_, hcube, d', h1', hlt, ?_⟩
  intro pre p post heq j hj
  obtain ⟨e1, e2, -⟩ := h3 pre p post heq
  have hp : p ∈ ps := by rw [heq]; simp
  have hu : j < (entriesOf d p).length := by rw [e1]; exact hj
  refine ⟨q p, (entriesOf d p)[j], hq' p hp, ?_, ?_⟩
  · rw [← e2 j hj, List.getElem?_eq_getElem hu]
  · rw [hh p hp, List.map_nil]
    have hsplit : (ps.flatMap fun p => (entriesOf d p).zipIdx.map fun xj => q p xj.2 xj.1 []) =
        (pre.flatMap fun p => (entriesOf d p).zipIdx.map fun xj => q p xj.2 xj.1 []) ++
        (((entriesOf d p).zipIdx.map fun xj => q p xj.2 xj.1 []) ++
          (post.flatMap fun p => (entriesOf d p).zipIdx.map fun xj => q p xj.2 xj.1 [])) := by
      conv_lhs => rw [heq]
      simp
    rw [hsplit, ← hlen pre (p :: post) heq, List.getElem?_append_right (by omega), Nat.add_sub_cancel_left,
      List.getElem?_append_left (by simpa using hu)]
    simp [hu]

/-- C41: a parameter without quantile function (`TruncNormal`, `GPCoefficients`, a `UserParameter`
without `ppf`) makes the transform raise. -/
theorem C41_no_ppf (π : Priors K) (ps : List Par) (x : Input K) (p : Par) (hp : p ∈ ps) (h : π.ppf p = none) :
    ∃ e, hypercube π ps x = .error e := by
  unfold hypercube
  cases x.toDict ps with
  | error e => exact ⟨e, rfl⟩
  | ok d =>
    have hs : ∀ l : List Par, p ∈ l → ∃ e, stackPpf π d l = .error e := by
      intro l
      induction l with
      | nil => intro h; simp at h
      | cons a t ih =>
        intro hm
        rw [stackPpf]
        rcases List.mem_cons.1 hm with rfl | hm
        · have : getPpf π d p = .error .notImplementedError := by unfold getPpf; rw [h]
          rw [this]; exact ⟨_, rfl⟩
        · obtain ⟨e, he⟩ := ih hm
          cases getPpf π d a with
          | error e' => exact ⟨e', rfl⟩
          | ok x => rw [he]; exact ⟨e, rfl⟩
    exact hs ps hp

end

/-- Quantiles of `Uniform(0, pmax)` with a hyperparameter or the number 10 as `pmax`
(`UniformPPF`, parameter.py 215-218). -/
def uniformPriors : Priors ℚ where
  logp _ _ _ _ := 0
  ppf _ := some fun _ u hs => match hs with
    | [.num m] => u * m
    | _ => u * 10

/-- C41 is false for hierarchical priors: `x = Uniform(0, h)`, `h = Uniform(0, 10)`.  At the centre of
the cube the code returns `x = 1/4` with `h = 5`, although the median of `Uniform(0, 5)` is
`5/2`: the quantile function is given the unit-cube value of the hyperparameter. -/
theorem C41_hierarchical_false :
    let h := Par.mk 0 "h" none []
    let x := Par.mk 1 "x" none [h]
    hypercube uniformPriors [h, x] (.vec [1/2, 1/2]) = .ok [5, 1/4] ∧
    Transformed uniformPriors [h, x] [1/2, 1/2] [5, 5/2] ∧
    ¬ Transformed uniformPriors [h, x] [1/2, 1/2] [5, 1/4] := by
  intro h x
  refine ⟨by decide +kernel, ?_, ?_⟩
  · refine ⟨[("h", .num 5), ("x", .num (5/2))], by decide +kernel, rfl, ?_⟩
    intro pre p post heq j hj
    have hw : ∀ r : Par, r = h ∨ r = x → r.width = 1 := by rintro r (rfl | rfl) <;> rfl
    match pre, heq with
    | [], heq =>
      simp only [List.nil_append, List.cons.injEq] at heq
      obtain ⟨rfl, -⟩ := heq
      have : j = 0 := by have := hw h (Or.inl rfl); omega
      subst this
      exact ⟨_, 1/2, rfl, rfl, by decide +kernel⟩
    | [a], heq =>
      simp only [List.cons_append, List.nil_append, List.cons.injEq] at heq
      obtain ⟨rfl, rfl, -⟩ := heq
      have : j = 0 := by have := hw x (Or.inr rfl); omega
      subst this
      exact ⟨_, 1/2, rfl, rfl, by decide +kernel⟩
    | a :: b :: t, heq => simp at heq
  · rintro ⟨d, hd, -, hall⟩
    have e : mapParams [h, x] [(5 : ℚ), 1/4] = .ok [("h", .num 5), ("x", .num (1/4))] := by decide +kernel
    rw [e] at hd
    injection hd with hd
    subst hd
    obtain ⟨q, u, hq, hu, ht⟩ := hall [h] x [] rfl 0 (by decide)
    have hq' : q = fun _ u hs => match hs with
      | [.num m] => u * m
      | _ => u * 10 := by
      have := Option.some.inj hq
      exact this.symm
    subst hq'
    have hu' : u = 1/2 := by
      have : ([1/2, 1/2] : List ℚ)[(paramNames [h]).length + 0]? = some (1/2) := by decide +kernel
      rw [this] at hu
      exact (Option.some.inj hu).symm
    subst hu'
    revert ht
    decide +kernel

/-- The hypotheses of `C41_transform_partial`: a number and a vector of two. -/
example := C41_transform_partial (K := ℚ) ⟨fun _ _ _ _ => 0, fun _ => some fun _ x _ => 2 * x⟩ [.mk 0 "a" none [], .mk 1 "b" (some 2) []] (by decide)
  [1 / 2, 1 / 3, 1 / 4] (by decide) (by simp [Par.hypers]) (by simp)

end Verif.Params
