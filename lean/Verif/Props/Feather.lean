import Verif.Lemmas.Feather

/-! # C19, C20: saving and loading feather files -/

set_option linter.unusedSectionVars false

namespace Verif.Feather

open Verif

variable {V M : Type}

/-! ## C19 -/

/-- C19 is false: saving never succeeds, for any pulsar and any noise dictionary. -/
theorem C19_save_false (p : Src V M) (nd : Option (Dict String M)) (f : File V M) :
    saveFeather p nd ≠ .ok f := by
  unfold saveFeather saveWith pulsarMetadata
  cases pydict p <;> simp

/-- With all arrays present the exception is `AttributeError`; without planet positions it is
`TypeError`. -/
theorem C19_save_raises (p : Src V M) (nd : Option (Dict String M)) (m s t : List V)
    (hm : p.vec "Mmat" = some m) (hs : p.vec "sunssb" = some s) (ht : p.vec "pos_t" = some t) :
    saveFeather p nd = .error (if p.planets = none then .typeError else .attributeError) := by
  unfold saveFeather saveWith pulsarMetadata pydict
  simp only [vectorColumns, allVecCols, hm, hs, ht]
  cases p.planets <;> simp

/-- Without one of the arrays nothing is saved, whatever metadata is asked for. -/
theorem C19_missing (lookup : Except PyErr (List String)) (p : Src V M) (nd : Option (Dict String M))
    (h : p.vec "Mmat" = none ∨ p.vec "sunssb" = none ∨ p.vec "pos_t" = none ∨ p.planets = none) :
    saveWith lookup p nd = .error .typeError := by
  unfold saveWith pydict
  simp only [vectorColumns, allVecCols]
  cases h1 : p.vec "Mmat" with
  | none => rfl
  | some m =>
    cases h2 : p.vec "sunssb" with
    | none => rfl
    | some s =>
      cases h3 : p.vec "pos_t" with
      | none => rfl
      | some t =>
        have h4 : p.planets = none := by simpa [h1, h2, h3] using h
        rw [h4]

/-- The names of the blocks of the table do not interfere. -/
theorem blocks (p : Src V M) (m s t : List V) (pl : List (List V))
    (hf : (p.flags.map Prod.fst).Nodup) (hm : p.vec "Mmat" = some m) (hs : p.vec "sunssb" = some s)
    (ht : p.vec "pos_t" = some t) (hp : p.planets = some pl) :
    pydict p = .ok ((columns.map fun c => (c, p.col c)) ++ vecCols "Mmat" m ++ vecCols "sunssb" s ++
      vecCols "pos_t" t ++ tenCols "planetssb" pl ++ p.flags.map fun kv => ("flags_" ++ kv.1, kv.2)) := by
  unfold pydict
  simp only [vectorColumns, allVecCols, hm, hs, ht, hp, List.append_nil]
  congr 1
  have hcol : ((columns.map fun c => (c, p.col c)).map Prod.fst) = columns := by
    simp [Function.comp_def]
  have hc0 : ((columns.map fun c => (c, p.col c)).map Prod.fst).Nodup := by rw [hcol]; decide
  rw [Dict.ofList_of_nodup hc0]
  have sw : ∀ (a : String) (vs : List V) kv, kv ∈ vecCols a vs → startsWith kv.1 (a ++ "_") = true := by
    intro a vs kv hkv
    obtain ⟨i, hi, -⟩ := mem_vecCols hkv
    rw [hi]; exact startsWith_append _ _
  have swn : ∀ (a b : String) (vs : List V) kv, kv ∈ vecCols a vs →
      ¬ (a ++ "_").toList <+: b.toList → ¬ b.toList <+: (a ++ "_").toList → startsWith kv.1 b = false := by
    intro a b vs kv hkv h1 h2
    obtain ⟨i, hi, -⟩ := mem_vecCols hkv
    rw [hi]; exact startsWith_false _ h1 h2
  have swt : ∀ kv ∈ tenCols "planetssb" pl, startsWith kv.1 "planetssb_" = true := by
    intro kv hkv
    obtain ⟨i, j, hij, -⟩ := mem_tenCols hkv
    rw [hij, String.append_assoc, String.append_assoc]
    exact startsWith_append "planetssb_" _
  have swtn : ∀ (b : String), ¬ "planetssb_".toList <+: b.toList → ¬ b.toList <+: "planetssb_".toList →
      ∀ kv ∈ tenCols "planetssb" pl, startsWith kv.1 b = false := by
    intro b h1 h2 kv hkv
    obtain ⟨i, j, hij, -⟩ := mem_tenCols hkv
    rw [hij, String.append_assoc, String.append_assoc]
    exact startsWith_false (a := "planetssb_") _ h1 h2
  -- disjointness through prefixes
  have dis : ∀ (l1 l2 : List (String × V)) (b : String), (∀ kv ∈ l1, startsWith kv.1 b = false) →
      (∀ kv ∈ l2, startsWith kv.1 b = true) → ∀ k ∈ l1.map Prod.fst, k ∉ l2.map Prod.fst := by
    intro l1 l2 b h1 h2 k hk hk'
    obtain ⟨kv, hkv, rfl⟩ := List.mem_map.1 hk
    obtain ⟨kv', hkv', he⟩ := List.mem_map.1 hk'
    have := h2 kv' hkv'
    rw [he, h1 kv hkv] at this; cases this
  have cfalse : ∀ b : String, (∀ c ∈ columns, startsWith c b = false) →
      ∀ kv ∈ (columns.map fun c => (c, p.col c)), startsWith kv.1 b = false := by
    intro b hb kv hkv
    obtain ⟨c, hc, rfl⟩ := List.mem_map.1 hkv
    exact hb c hc
  have upd : ∀ (d e : List (String × V)) (b : String), (e.map Prod.fst).Nodup →
      (∀ kv ∈ d, startsWith kv.1 b = false) → (∀ kv ∈ e, startsWith kv.1 b = true) →
      Dict.update d e = d ++ e := by
    intro d e b h1 h2 h3
    apply Dict.update_append_of_fresh h1
    intro k hk
    exact fun hk' => dis d e b h2 h3 k hk' hk
  have updapp : ∀ (d e e' : List (String × V)), Dict.update d (e ++ e') = Dict.update (Dict.update d e) e' := by
    intro d e e'; simp [Dict.update, List.foldl_append]
  rw [updapp, updapp]
  rw [upd _ (vecCols "Mmat" m) "Mmat_" (vecCols_keys_nodup _ _) (cfalse _ (by decide)) (sw _ _)]
  rw [upd _ (vecCols "sunssb" s) "sunssb_" (vecCols_keys_nodup _ _) ?_ (sw _ _)]
  · rw [upd _ (vecCols "pos_t" t) "pos_t_" (vecCols_keys_nodup _ _) ?_ (sw _ _)]
    · rw [upd _ (tenCols "planetssb" pl) "planetssb_" (tenCols_keys_nodup _ _) ?_ swt]
      · rw [upd _ (p.flags.map fun kv => ("flags_" ++ kv.1, kv.2)) "flags_" ?_ ?_ ?_]
        · rw [List.map_map]
          have : (Prod.fst ∘ fun kv : String × V => ("flags_" ++ kv.1, kv.2)) =
            (fun k => "flags_" ++ k) ∘ Prod.fst := rfl
          rw [this, ← List.map_map]
          apply List.Nodup.map _ hf
          intro x y hxy
          have := congrArg dropFirstPart hxy
          simpa [dropFirstPart_flags] using this
        · intro kv hkv
          simp only [List.mem_append] at hkv
          rcases hkv with (((h | h) | h) | h) | h
          · exact cfalse _ (by decide) kv h
          · exact swn _ _ _ kv h (by decide) (by decide)
          · exact swn _ _ _ kv h (by decide) (by decide)
          · exact swn _ _ _ kv h (by decide) (by decide)
          · exact swtn _ (by decide) (by decide) kv h
        · intro kv hkv
          obtain ⟨kv', -, rfl⟩ := List.mem_map.1 hkv
          exact startsWith_append _ _
      · intro kv hkv
        simp only [List.mem_append] at hkv
        rcases hkv with ((h | h) | h) | h
        · exact cfalse _ (by decide) kv h
        · exact swn _ _ _ kv h (by decide) (by decide)
        · exact swn _ _ _ kv h (by decide) (by decide)
        · exact swn _ _ _ kv h (by decide) (by decide)
    · intro kv hkv
      simp only [List.mem_append] at hkv
      rcases hkv with (h | h) | h
      · exact cfalse _ (by decide) kv h
      · exact swn _ _ _ kv h (by decide) (by decide)
      · exact swn _ _ _ kv h (by decide) (by decide)
  · intro kv hkv
    simp only [List.mem_append] at hkv
    rcases hkv with h | h
    · exact cfalse _ (by decide) kv h
    · exact swn _ _ _ kv h (by decide) (by decide)

/-- Row names of a tensor with at most ten rows are in lexicographic order. -/
theorem rowNames_sorted {n : Nat} (h : n ≤ 10) :
    ((List.range n).map fun i => "planetssb" ++ "_" ++ Nat.repr i).Pairwise (· ≤ ·) := by
  have h10 : ((List.range 10).map fun i => "planetssb" ++ "_" ++ Nat.repr i).Pairwise (· ≤ ·) := by
    decide +kernel
  exact List.Pairwise.sublist (List.Sublist.map _ (List.range_sublist.2 h)) h10

theorem rowName_incomparable : ∀ i < 10, ∀ i' < 10, i ≠ i' →
    ¬ ("planetssb" ++ "_" ++ Nat.repr i' ++ "_").toList <+: ("planetssb" ++ "_" ++ Nat.repr i).toList ∧
    ¬ ("planetssb" ++ "_" ++ Nat.repr i).toList <+: ("planetssb" ++ "_" ++ Nat.repr i' ++ "_").toList := by
  decide +kernel

theorem flatMap_select {pl : List (List V)} (i k : Nat) :
    ((pl.zipIdx k).flatMap fun ri => if ri.2 = i + k then ri.1 else []) = pl.getD i [] := by
  induction pl generalizing i k with
  | nil => simp
  | cons r t ih =>
    simp only [List.zipIdx_cons, List.flatMap_cons]
    cases i with
    | zero =>
      simp only [Nat.zero_add, if_true, List.getD_cons_zero]
      have : ((t.zipIdx (k + 1)).flatMap fun ri => if ri.2 = k then ri.1 else []) = [] := by
        rw [List.flatMap_eq_nil_iff]
        intro x hx
        have := List.le_snd_of_mem_zipIdx hx
        rw [if_neg (by omega)]
      rw [this, List.append_nil]
    | succ i =>
      rw [if_neg (by omega), List.nil_append, List.getD_cons_succ, ← ih i (k + 1)]
      congr 1
      funext ri
      congr 2
      omega

theorem get?_filterMap_names {α : Type} (names : List String) (d : Dict String α) (hn : names.Nodup) (a : String) :
    Dict.get? (names.filterMap fun n => (Dict.get? d n).map fun v => (n, v)) a =
      if a ∈ names then Dict.get? d a else none := by
  induction names with
  | nil => rfl
  | cons n t ih =>
    rw [List.nodup_cons] at hn
    simp only [List.filterMap_cons]
    cases hg : Dict.get? d n with
    | none =>
      simp only [Option.map_none, ih hn.2, List.mem_cons]
      by_cases e : a = n
      · subst e; simp [hn.1, hg]
      · simp [e]
    | some v =>
      simp only [Option.map_some, Dict.get?_cons, ih hn.2, List.mem_cons]
      by_cases e : n = a
      · subst e; simp [hg]
      · simp [e, Ne.symm e]

theorem filterMap_congr_names {α : Type} (names : List String) (d d' : Dict String α)
    (h : ∀ n ∈ names, Dict.get? d n = Dict.get? d' n) :
    (names.filterMap fun n => (Dict.get? d n).map fun v => (n, v)) =
      names.filterMap fun n => (Dict.get? d' n).map fun v => (n, v) := by
  apply List.filterMap_congr
  intro n hn
  rw [h n hn]

/-- What a file says about the pulsar besides its columns. -/
def kept : List String := ["name", "dm", "dmx", "pdist", "pos", "phi", "theta"]

theorem kept_eq : metadataNames = kept := rfl

/-- C19 (partial): the layout of the file loses nothing.  If the metadata lookup worked, then for
every pulsar with a non-empty design matrix and positions, between one and ten planets, and any
flags (with any names), reading the written file gives back every column, array, flag and
metadata entry, in order, and the noise entries that were kept.  Missing: the lookup does not
work (`C19_save_false`), pulsars without planets, and the fit-parameter names, which are not in
the file. -/
theorem C19_round_trip_partial (p : Src V M) (nd : Option (Dict String M)) (m s t : List V)
    (pl : List (List V)) (hf : (p.flags.map Prod.fst).Nodup)
    (hm : p.vec "Mmat" = some m) (hs : p.vec "sunssb" = some s)
    (ht : p.vec "pos_t" = some t) (hp : p.planets = some pl) (hm0 : m ≠ []) (hs0 : s ≠ [])
    (ht0 : t ≠ []) (hpl : pl ≠ []) (hpl10 : pl.length ≤ 10) (hrow : ∀ r ∈ pl, r ≠ []) :
    ∃ f, saveWith (.ok metadataNames) p nd = .ok f ∧
      readFeather f = .ok {
        cols := columns.map fun c => (c, p.col c)
        vecs := [("Mmat", m), ("sunssb", s), ("pos_t", t)]
        planets := pl
        flags := p.flags
        metaAttrs := kept.filterMap fun a => (Dict.get? p.attrs a).map fun v => (a, v)
        noise := noiseMeta p.name p.noisedict nd } := by
  rw [← kept_eq]
  have hsave : saveWith (.ok metadataNames) p nd = .ok
      { cols := (columns.map fun c => (c, p.col c)) ++ vecCols "Mmat" m ++ vecCols "sunssb" s ++
          vecCols "pos_t" t ++ tenCols "planetssb" pl ++ p.flags.map fun kv => ("flags_" ++ kv.1, kv.2)
        metaAttrs := metadataNames.filterMap fun a => (Dict.get? p.attrs a).map fun v => (a, v)
        noise := noiseMeta p.name p.noisedict nd } := by
    unfold saveWith
    rw [blocks p m s t pl hf hm hs ht hp]
  refine ⟨_, hsave, ?_⟩
  have swn : ∀ (a b : String) (vs : List V),
      ¬ (a ++ "_").toList <+: b.toList → ¬ b.toList <+: (a ++ "_").toList →
      ((vecCols a vs).filter fun kv => startsWith kv.1 b) = [] := by
    intro a b vs h1 h2
    apply filter_none (f := fun k => startsWith k b)
    intro kv hkv
    obtain ⟨i, hi, -⟩ := mem_vecCols hkv
    rw [hi]; exact startsWith_false _ h1 h2
  have sw : ∀ (a : String) (vs : List V), ((vecCols a vs).filter fun kv => startsWith kv.1 a) = vecCols a vs := by
    intro a vs
    apply filter_all (f := fun k => startsWith k a)
    intro kv hkv
    obtain ⟨i, hi, -⟩ := mem_vecCols hkv
    rw [hi, String.append_assoc]; exact startsWith_append _ _
  have swtn : ∀ (b : String), ¬ "planetssb_".toList <+: b.toList → ¬ b.toList <+: "planetssb_".toList →
      ((tenCols "planetssb" pl).filter fun kv => startsWith kv.1 b) = [] := by
    intro b h1 h2
    apply filter_none (f := fun k => startsWith k b)
    intro kv hkv
    obtain ⟨i, j, hij, -⟩ := mem_tenCols hkv
    rw [hij, String.append_assoc, String.append_assoc]
    exact startsWith_false (a := "planetssb_") _ h1 h2
  have swf : ∀ (b : String), ¬ "flags_".toList <+: b.toList → ¬ b.toList <+: "flags_".toList →
      ((p.flags.map fun kv => ("flags_" ++ kv.1, kv.2)).filter fun kv => startsWith kv.1 b) = [] := by
    intro b h1 h2
    apply filter_none (f := fun k => startsWith k b)
    intro kv hkv
    obtain ⟨kv', -, rfl⟩ := List.mem_map.1 hkv
    exact startsWith_false _ h1 h2
  have swc : ∀ b : String, (∀ c ∈ columns, startsWith c b = false) →
      ((columns.map fun c => (c, p.col c)).filter fun kv => startsWith kv.1 b) = [] := by
    intro b hb
    apply filter_none (f := fun k => startsWith k b)
    intro kv hkv
    obtain ⟨c, hc, rfl⟩ := List.mem_map.1 hkv
    exact hb c hc
  have hne : ∀ (array : String) (vs : List V) (T : Dict String V), vs ≠ [] →
      (pick T fun c => startsWith c array) = vs → readVec T array = .ok (array, vs) := by
    intro array vs T h0 hT
    unfold readVec
    rw [hT]
    cases vs with
    | nil => exact absurd rfl h0
    | cons v vt => rfl
  generalize hT : ((columns.map fun c => (c, p.col c)) ++ vecCols "Mmat" m ++ vecCols "sunssb" s ++
      vecCols "pos_t" t ++ tenCols "planetssb" pl ++ p.flags.map fun kv => ("flags_" ++ kv.1, kv.2)) = T
  have hMm : readVec T "Mmat" = .ok ("Mmat", m) := by
    apply hne _ _ _ hm0
    rw [← hT]; unfold pick
    simp only [List.filter_append]
    rw [swc _ (by decide), sw, swn _ _ _ (by decide) (by decide), swn _ _ _ (by decide) (by decide),
      swtn _ (by decide) (by decide), swf _ (by decide) (by decide)]
    simp [vecCols_values]
  have hSu : readVec T "sunssb" = .ok ("sunssb", s) := by
    apply hne _ _ _ hs0
    rw [← hT]; unfold pick
    simp only [List.filter_append]
    rw [swc _ (by decide), swn "Mmat" _ _ (by decide) (by decide), sw, swn "pos_t" _ _ (by decide) (by decide),
      swtn _ (by decide) (by decide), swf _ (by decide) (by decide)]
    simp [vecCols_values]
  have hPo : readVec T "pos_t" = .ok ("pos_t", t) := by
    apply hne _ _ _ ht0
    rw [← hT]; unfold pick
    simp only [List.filter_append]
    rw [swc _ (by decide), swn "Mmat" _ _ (by decide) (by decide), swn "sunssb" _ _ (by decide) (by decide), sw,
      swtn _ (by decide) (by decide), swf _ (by decide) (by decide)]
    simp [vecCols_values]
  -- the planets
  have hfil : (T.filter fun kv => startsWith kv.1 "planetssb") = tenCols "planetssb" pl := by
    rw [← hT]
    simp only [List.filter_append]
    rw [swc _ (by decide), swn "Mmat" _ _ (by decide) (by decide), swn "sunssb" _ _ (by decide) (by decide),
      swn "pos_t" _ _ (by decide) (by decide), swf _ (by decide) (by decide)]
    simp only [List.nil_append, List.append_nil]
    apply filter_all (f := fun k => startsWith k "planetssb")
    intro kv hkv
    obtain ⟨i, j, hij, -⟩ := mem_tenCols hkv
    rw [hij, String.append_assoc, String.append_assoc, String.append_assoc]
    exact startsWith_append _ _
  have hrows : tensorRows T "planetssb" = (List.range pl.length).map fun i => "planetssb" ++ "_" ++ Nat.repr i := by
    unfold tensorRows
    rw [hfil]
    have hmem : ∀ x, x ∈ ((tenCols "planetssb" pl).map fun kv => dropLastPart kv.1).dedup ↔
        x ∈ (List.range pl.length).map fun i => "planetssb" ++ "_" ++ Nat.repr i := by
      intro x
      rw [List.mem_dedup, List.mem_map, List.mem_map]
      constructor
      · rintro ⟨kv, hkv, rfl⟩
        obtain ⟨i, j, hij, hi⟩ := mem_tenCols hkv
        exact ⟨i, List.mem_range.2 hi, by rw [hij, dropLastPart_append]⟩
      · rintro ⟨i, hi, rfl⟩
        have hi := List.mem_range.1 hi
        have hr := hrow _ (List.getElem_mem hi)
        obtain ⟨v, vt, hv⟩ := List.exists_cons_of_ne_nil hr
        refine ⟨("planetssb" ++ "_" ++ Nat.repr i ++ "_" ++ Nat.repr 0, v), ?_, dropLastPart_append _ _⟩
        unfold tenCols
        rw [List.mem_flatMap]
        refine ⟨(pl[i], i), List.mem_zipIdx_iff_getElem?.2 (List.getElem?_eq_getElem hi), ?_⟩
        simp only [hv, vecCols, List.zipIdx_cons, List.map_cons, List.mem_cons, true_or]
    have hperm : (((tenCols "planetssb" pl).map fun kv => dropLastPart kv.1).dedup.insertionSort (· ≤ ·)).Perm
        ((List.range pl.length).map fun i => "planetssb" ++ "_" ++ Nat.repr i) := by
      refine (List.perm_insertionSort _ _).trans ?_
      rw [List.perm_ext_iff_of_nodup (List.nodup_dedup _)
        (List.Nodup.map (repr_prefix_inj _) List.nodup_range)]
      exact hmem
    exact hperm.eq_of_pairwise (fun a b _ _ h1 h2 => le_antisymm h1 h2)
      (List.pairwise_insertionSort _ _) (rowNames_sorted hpl10)
  have hten : readTensor T "planetssb" = .ok pl := by
    unfold readTensor
    have hpick : (tensorRows T "planetssb").map (fun row => pick T fun c => startsWith c row) = pl := by
      rw [hrows, List.map_map]
      apply List.ext_getElem
      · simp
      · intro i h1 h2
        simp only [List.getElem_map, List.getElem_range, Function.comp_def]
        unfold pick
        have hi10 : i < 10 := lt_of_lt_of_le h2 hpl10
        have hpre : ¬ ∃ c ∈ ["Mmat_", "sunssb_", "pos_t_", "flags_"],
            c.toList <+: ("planetssb" ++ "_" ++ Nat.repr i).toList ∨
              ("planetssb" ++ "_" ++ Nat.repr i).toList <+: c.toList := by
          have : ∀ i < 10, ¬ ∃ c ∈ ["Mmat_", "sunssb_", "pos_t_", "flags_"],
            c.toList <+: ("planetssb" ++ "_" ++ Nat.repr i).toList ∨
              ("planetssb" ++ "_" ++ Nat.repr i).toList <+: c.toList := by decide +kernel
          exact this i hi10
        have hcc : ∀ c ∈ columns, startsWith c ("planetssb" ++ "_" ++ Nat.repr i) = false := by
          have : ∀ i < 10, ∀ c ∈ columns, startsWith c ("planetssb" ++ "_" ++ Nat.repr i) = false := by
            decide +kernel
          exact this i hi10
        push Not at hpre
        rw [← hT]
        simp only [List.filter_append]
        rw [swc _ hcc, swn "Mmat" _ _ (hpre "Mmat_" (by simp)).1 (hpre "Mmat_" (by simp)).2,
          swn "sunssb" _ _ (hpre "sunssb_" (by simp)).1 (hpre "sunssb_" (by simp)).2,
          swn "pos_t" _ _ (hpre "pos_t_" (by simp)).1 (hpre "pos_t_" (by simp)).2,
          swf _ (hpre "flags_" (by simp)).1 (hpre "flags_" (by simp)).2]
        simp only [List.nil_append, List.append_nil]
        unfold tenCols
        rw [List.filter_flatMap, List.map_flatMap]
        have hfun : ∀ ri ∈ pl.zipIdx, ((vecCols ("planetssb" ++ "_" ++ Nat.repr ri.2) ri.1).filter
            fun kv => startsWith kv.1 ("planetssb" ++ "_" ++ Nat.repr i)).map Prod.snd =
              if ri.2 = i + 0 then ri.1 else [] := by
          intro ri hri
          have hr : ri.2 < 10 := by
            have := List.mem_zipIdx_iff_getElem?.1 hri
            exact lt_of_lt_of_le (List.getElem?_eq_some_iff.1 this).1 hpl10
          by_cases e : ri.2 = i
          · rw [e, sw, vecCols_values]; simp
          · have := rowName_incomparable i hi10 ri.2 hr (Ne.symm e)
            rw [swn _ _ _ this.1 this.2]; simp [e]
        rw [List.flatMap_congr hfun, flatMap_select]
        simp [h2]
    have hne' : tensorRows T "planetssb" ≠ [] := by
      rw [hrows]; simp [hpl]
    cases hr : tensorRows T "planetssb" with
    | nil => exact absurd hr hne'
    | cons a b =>
      simp only
      rw [← hr, hpick]
  -- plain columns
  have hcols : (columns.filterMap fun a => (Dict.get? T a).map fun v => (a, v)) =
      columns.map fun c => (c, p.col c) := by
    have hget : ∀ c ∈ columns, Dict.get? T c = some (p.col c) := by
      intro c hc
      have hx : Dict.get? (columns.map fun c => (c, p.col c)) c = some (p.col c) := by
        apply Dict.get?_of_mem
        · have : ((columns.map fun c => (c, p.col c)).map Prod.fst) = columns := by
            simp [Function.comp_def]
          rw [this]; decide
        · exact List.mem_map.2 ⟨c, hc, rfl⟩
      have happ : ∀ (d e : Dict String V) v, Dict.get? d c = some v → Dict.get? (d ++ e) c = some v := by
        intro d e v h
        induction d with
        | nil => simp at h
        | cons kv d ih =>
          obtain ⟨k', v'⟩ := kv
          rw [List.cons_append, Dict.get?_cons]
          rw [Dict.get?_cons] at h
          split
          · next e => rw [if_pos e] at h; exact h
          · next e => rw [if_neg e] at h; exact ih h
      rw [← hT]
      simp only [List.append_assoc]
      exact happ _ _ _ hx
    have : ∀ l : List String, (∀ c ∈ l, Dict.get? T c = some (p.col c)) →
        (l.filterMap fun a => (Dict.get? T a).map fun v => (a, v)) = l.map fun c => (c, p.col c) := by
      intro l
      induction l with
      | nil => intro _; rfl
      | cons c l ih =>
        intro h
        simp only [List.filterMap_cons, h c (by simp), Option.map_some, List.map_cons]
        rw [ih fun c' hc' => h c' (by simp [hc'])]
    exact this columns hget
  -- flags
  have hflags : Dict.ofList ((T.filter fun kv => startsWith kv.1 "flags_").map
      fun kv => (dropFirstPart kv.1, kv.2)) = p.flags := by
    have : (T.filter fun kv => startsWith kv.1 "flags_") = p.flags.map fun kv => ("flags_" ++ kv.1, kv.2) := by
      rw [← hT]
      simp only [List.filter_append]
      rw [swc _ (by decide), swn "Mmat" _ _ (by decide) (by decide), swn "sunssb" _ _ (by decide) (by decide),
        swn "pos_t" _ _ (by decide) (by decide), swtn _ (by decide) (by decide)]
      simp only [List.nil_append]
      apply filter_all (f := fun k => startsWith k "flags_")
      intro kv hkv
      obtain ⟨kv', -, rfl⟩ := List.mem_map.1 hkv
      exact startsWith_append _ _
    rw [this, List.map_map]
    have hid : ((fun kv : String × V => (dropFirstPart kv.1, kv.2)) ∘ fun kv => ("flags_" ++ kv.1, kv.2)) = id := by
      funext kv; simp [dropFirstPart_flags]
    rw [hid, List.map_id, Dict.ofList_of_nodup hf]
  have hmeta : (metadataNames.filterMap fun a => (Dict.get? (metadataNames.filterMap fun a =>
      (Dict.get? p.attrs a).map fun v => (a, v)) a).map fun v => (a, v)) =
      metadataNames.filterMap fun a => (Dict.get? p.attrs a).map fun v => (a, v) := by
    apply filterMap_congr_names
    intro n hn
    rw [get?_filterMap_names _ _ (by decide), if_pos hn]
  unfold readFeather
  simp only [vectorColumns, List.mapM_cons, List.mapM_nil, hMm, hSu, hPo, hten, hcols, hflags, hmeta, bind,
    Except.bind, pure, Except.pure]

/-- The restriction to ten rows is needed: with eleven, rows come back in a different order and
with foreign columns. -/
theorem C19_eleven_rows :
    readTensor (tenCols "planetssb" ((List.range 11).map fun i => [i])) "planetssb" =
      .ok [[0], [1, 10], [10], [2], [3], [4], [5], [6], [7], [8], [9]] := by decide +kernel

/-- A small pulsar meeting the hypotheses of `C19_round_trip_partial`. -/
def toySrc : Src Nat Nat where
  name := "B1855+09"
  col := fun c => c.length
  vec := fun a => if a = "Mmat" then some [1, 2] else some [3]
  planets := some [[1, 2, 3], [4, 5, 6]]
  flags := [("fe", 1), ("my_flag_x", 2), ("", 3)]
  attrs := [("name", 7), ("dm", 8)]
  noisedict := some [("B1855+09_efac", 1), ("J1909_efac", 2)]

example : ∃ f, saveWith (.ok metadataNames) toySrc none = .ok f ∧ readFeather f = .ok
    { cols := columns.map fun c => (c, toySrc.col c)
      vecs := [("Mmat", [1, 2]), ("sunssb", [3]), ("pos_t", [3])]
      planets := [[1, 2, 3], [4, 5, 6]]
      flags := toySrc.flags
      metaAttrs := [("name", 7), ("dm", 8)]
      noise := some [("B1855+09_efac", 1)] } :=
  C19_round_trip_partial toySrc none [1, 2] [3] [3] [[1, 2, 3], [4, 5, 6]] (by decide) rfl (by decide) (by decide) rfl
    (by decide) (by decide) (by decide) (by decide) (by decide) (by decide)

/-! ## C20 -/

/-- A noise-dictionary key belongs to a pulsar: it is the name, or the name followed by an
underscore and more. -/
def Belongs (key name : String) : Prop :=
  key = name ∨ ∃ rest, key = name ++ "_" ++ rest

/-- C20 (partial): every entry that belongs to the pulsar is kept with its value, in order, and an
entry of another pulsar is dropped unless one name extends the other.  Missing: pulsars whose
names extend this one's (`C20_other_pulsar_false`). -/
theorem C20_own_kept_partial (name : String) (nd : Dict String M) :
    (keepNoise name nd).Sublist nd ∧
    (∀ kv ∈ nd, Belongs kv.1 name → kv ∈ keepNoise name nd) ∧
    (∀ kv ∈ keepNoise name nd, ∀ other, Belongs kv.1 other →
      ¬ name.toList <+: other.toList → ¬ (other ++ "_").toList <+: name.toList → False) := by
  refine ⟨List.filter_sublist, ?_, ?_⟩
  · intro kv hkv hb
    refine List.mem_filter.2 ⟨hkv, ?_⟩
    rcases hb with h | ⟨rest, h⟩
    · rw [h]; simp [startsWith]
    · rw [h, String.append_assoc]; exact startsWith_append _ _
  · intro kv hkv other hb h1 h2
    have hp := (List.mem_filter.1 hkv).2
    rcases hb with h | ⟨rest, h⟩
    · rw [h] at hp
      exact h1 (by simpa [startsWith] using hp)
    · rw [h] at hp
      have hf := startsWith_false (a := other ++ "_") (b := name) rest h2 (by
        intro hc
        obtain ⟨r, hr⟩ := hc
        rw [String.toList_append] at hr
        by_cases hr0 : r = []
        · subst hr0
          rw [List.append_nil] at hr
          apply h2
          rw [String.toList_append, hr]
          exact List.prefix_rfl
        · apply h1
          have hlast := congrArg List.dropLast hr
          rw [List.dropLast_append_of_ne_nil hr0] at hlast
          have : (other.toList ++ "_".toList).dropLast = other.toList := by simp
          rw [this] at hlast
          exact ⟨_, hlast⟩)
      rw [hf] at hp
      cases hp

/-- C20 is false: saving `J1744` keeps an entry that belongs to `J1744-1134`. -/
theorem C20_other_pulsar_false :
    keepNoise "J1744" [("J1744-1134_efac", 1), ("J1744_efac", 2)] =
      [("J1744-1134_efac", 1), ("J1744_efac", 2)] ∧
    Belongs "J1744-1134_efac" "J1744-1134" ∧ ¬ Belongs "J1744-1134_efac" "J1744" := by
  refine ⟨by decide +kernel, Or.inr ⟨"efac", by decide +kernel⟩, ?_⟩
  rintro (h | ⟨rest, h⟩)
  · exact absurd h (by decide +kernel)
  · have := congrArg String.toList h
    simp [String.toList_append] at this

example : keepNoise "J1909-3744" [("J1909-3744_efac", 1), ("B1855+09_efac", 2), ("gw_log10_A", 3)] =
    [("J1909-3744_efac", 1)] := by decide +kernel

/-- An explicitly given dictionary takes precedence over the pulsar's own; an empty or missing
one writes nothing. -/
theorem C20_source (name : String) (own arg : Option (Dict String M)) :
    noiseMeta name own arg = match arg, own with
      | some (kv :: t), _ => some (keepNoise name (kv :: t))
      | some [], _ => none
      | none, some (kv :: t) => some (keepNoise name (kv :: t))
      | none, _ => none := by
  rcases arg with _ | (_ | _) <;> rcases own with _ | (_ | _) <;> rfl

end Verif.Feather
