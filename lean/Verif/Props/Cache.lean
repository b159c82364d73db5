import Verif.Lemmas.Cache

/-! # C26-C33: caching is invisible (where it is) -/

set_option linter.unusedSectionVars false

namespace Verif.Cache

open Verif

variable {K V : Type} {κ : Type} [DecidableEq κ]

/-- The method uses nothing of the parameter dictionary except the listed names. -/
def DependsOnly {R : Type} (names : List String) (f : Params K → R) : Prop :=
  ∀ p p', (∀ n ∈ names, Dict.get? p n = Dict.get? p' n) → f p = f p'

/-! ## C26 -/

theorem call1_good {E : κ → V → Prop} {s : CState κ V} (h : Good E s) {limit : Nat}
    (hl : 1 ≤ limit) (k : κ) (res : Except PyErr V) (hres : ∀ v, E k v ↔ res = .ok v) :
    (call1 limit k res s).2 = res ∧ Good E (call1 limit k res s).1 := by
  unfold call1 wrap
  simp only [id]
  cases hg : Dict.get? s.cache k with
  | some v =>
    have := (hres v).1 (h.right k v hg)
    exact ⟨this.symm, h⟩
  | none =>
    cases res with
    | error e =>
      refine ⟨rfl, good_append_err h ?_⟩
      intro v hv; have := (hres v).1 hv; cases this
    | ok v =>
      have := good_insert h hg ((hres v).2 rfl) hl
      refine ⟨?_, this.1⟩
      simp only [Dict.get!, this.2]

/-- C26: for every sequence of calls with arbitrary parameter dictionaries, a cached method
returns (or raises) exactly what the bare method does, provided the method depends only on the
listed parameters and the cache holds at least one entry. -/
theorem C26_transparent [DecidableEq K] (names : List String) (limit : Nat) (hl : 1 ≤ limit)
    (f : Params K → Except PyErr V) (hf : DependsOnly names f) (hist : List (Params K)) :
    (runHist limit (hist.map fun p => (cacheKey names p, f p)) CState.empty).2 = hist.map f := by
  have key : ∀ (hist : List (Params K)) (s : CState (List (String × PVal K)) V),
      Good (fun k v => ∃ p, cacheKey names p = k ∧ f p = .ok v) s →
      (runHist limit (hist.map fun p => (cacheKey names p, f p)) s).2 = hist.map f := by
    intro hist
    induction hist with
    | nil => intro s _; rfl
    | cons p t ih =>
      intro s hs
      have hres : ∀ v, (∃ p', cacheKey names p' = cacheKey names p ∧ f p' = .ok v) ↔ f p = .ok v := by
        intro v
        constructor
        · rintro ⟨p', hp', hv⟩
          rw [← hf p' p (cacheKey_inj names p' p hp')]; exact hv
        · intro hv; exact ⟨p, rfl, hv⟩
      obtain ⟨h1, h2⟩ := call1_good hs hl (cacheKey names p) (f p) hres
      simp only [List.map_cons, runHist, h1, ih _ h2]
  exact key hist _ (good_empty _)

/-- Dropping the dependency condition makes the claim false: with an unlisted parameter the
second call returns the first call's value. -/
theorem C26_needs_listed :
    ∃ (f : Params Nat → Except PyErr (Option (PVal Nat))) (p p' : Params Nat), f p ≠ f p' ∧
      (runHist 2 ([p, p'].map fun q => (cacheKey ["a"] q, f q)) CState.empty).2 = [f p, f p] :=
  ⟨fun p => .ok (Dict.get? p "b"), [("b", .scalar 1)], [("b", .scalar 2)],
    by decide +kernel, by decide +kernel⟩

example : (runHist 2 ([[("a", .scalar 1)], [("a", .vector [2, 3])], [("a", .scalar 5), ("z", .scalar 0)],
      [("a", .scalar 1)]].map fun q : Params Nat => (cacheKey ["a"] q,
        (Except.ok (Dict.get? q "a") : Except PyErr (Option (PVal Nat))))) CState.empty).2 =
    [.ok (some (.scalar 1)), .ok (some (.vector [2, 3])), .ok (some (.scalar 5)),
      .ok (some (.scalar 1))] := by decide +kernel

/-! ## C27: exceptions -/

/-- Outcome of the bare method at one moment: it may fail for an unrelated reason. -/
def outcome (f : κ → V) (k : κ) : Option PyErr → Except PyErr V
  | some e => .error e
  | none => .ok (f k)

/-- C27 (first half): in every history in which calls may fail at any time for any reason, each
call of the cached method either raises or returns the right value. -/
theorem C27_never_wrong (limit : Nat) (f : κ → V) (hist : List (κ × Option PyErr)) :
    List.Forall₂ (fun (h : κ × Option PyErr) (r : Except PyErr V) => ∀ v, r = .ok v → v = f h.1) hist
      (runHist limit (hist.map fun h => (h.1, outcome f h.1 h.2)) CState.empty).2 := by
  have key : ∀ (hist : List (κ × Option PyErr)) (s : CState κ V), Right (fun k v => v = f k) s →
      List.Forall₂ (fun (h : κ × Option PyErr) (r : Except PyErr V) => ∀ v, r = .ok v → v = f h.1) hist
        (runHist limit (hist.map fun h => (h.1, outcome f h.1 h.2)) s).2 := by
    intro hist
    induction hist with
    | nil => intro s _; exact List.Forall₂.nil
    | cons h t ih =>
      obtain ⟨k, o⟩ := h
      intro s hs
      have step : (∀ v, (call1 limit k (outcome f k o) s).2 = .ok v → v = f k) ∧
          Right (fun k v => v = f k) (call1 limit k (outcome f k o) s).1 := by
        unfold call1 wrap
        simp only [id]
        cases hg : Dict.get? s.cache k with
        | some v =>
          refine ⟨?_, hs⟩
          intro w hw; cases hw; exact hs k v hg
        | none =>
          cases o with
          | some e =>
            refine ⟨?_, hs⟩
            intro w hw; cases hw
          | none =>
            simp only [outcome]
            have hr : Right (fun k v => v = f k)
                (evict limit ⟨Dict.set s.cache k (f k), s.list ++ [k]⟩) :=
              right_evict (right_set hs rfl _) limit
            refine ⟨?_, hr⟩
            intro w hw
            unfold Dict.get! at hw
            split at hw
            · next v hv => cases hw; exact hr k _ hv
            · cases hw
      exact List.Forall₂.cons step.1 (ih _ step.2)
  exact key hist _ (by intro k v h; simp [CState.empty] at h)

/-- C27 (second half) is false: with the default cache size, two failures of the first call make
every later call with that key raise `KeyError`, for ever, although the method would now
succeed. -/
theorem C27_retry_false (k : κ) (v : V) (e : PyErr) (n : Nat) :
    (runHist 2 ([(k, .error e), (k, .error e)] ++ List.replicate n (k, .ok v))
      (CState.empty : CState κ V)).2 =
      [.error e, .error e] ++ List.replicate n (.error .keyError) := by
  have hfix : ∀ n, (runHist 2 (List.replicate n (k, Except.ok v)) (⟨[], [k, k]⟩ : CState κ V)).2 =
      List.replicate n (.error .keyError) := by
    intro n
    induction n with
    | zero => rfl
    | succ n ih =>
      have hstep : call1 2 k (.ok v) (⟨[], [k, k]⟩ : CState κ V) = (⟨[], [k, k]⟩, .error .keyError) := by
        simp [call1, wrap, evict, Dict.set, Dict.erase, Dict.get!]
      simp only [List.replicate_succ, runHist, hstep, ih]
  have h1 : call1 2 k (.error e) (CState.empty : CState κ V) = (⟨[], [k]⟩, .error e) := by
    simp [call1, wrap, CState.empty]
  have h2 : call1 2 k (.error e) (⟨[], [k]⟩ : CState κ V) = (⟨[], [k, k]⟩, .error e) := by
    simp [call1, wrap]
  simp only [List.cons_append, List.nil_append, runHist, h1, h2, hfix]

/-- Bookkeeping after calls without exception: the list is the list of cached keys. -/
structure Clean (limit : Nat) (s : CState κ V) : Prop where
  keys : s.cache.map Prod.fst = s.list
  nodup : s.list.Nodup
  bound : s.list.length ≤ limit

theorem clean_call {limit : Nat} (hl : 1 ≤ limit) {s : CState κ V} (h : Clean limit s) (k : κ) (v : V) :
    Clean limit (call1 limit k (.ok v) s).1 ∧ (call1 limit k (.ok v) s).1.cache ≠ [] ∧
    (k ∉ s.list → (call1 limit k (.ok v) s).2 = .ok v) := by
  unfold call1 wrap
  simp only [id]
  cases hg : Dict.get? s.cache k with
  | some w =>
    refine ⟨h, ?_, ?_⟩
    · intro e
      simp only at e
      rw [e] at hg; simp at hg
    · intro hk
      exfalso; apply hk
      rw [← h.keys]
      exact List.mem_map.2 ⟨_, Dict.mem_of_get?_eq_some hg, rfl⟩
  | none =>
    have hk : k ∉ s.list := by
      rw [← h.keys]; exact (Dict.get?_eq_none_iff _ _).1 hg
    have hset : Dict.set s.cache k v = s.cache ++ [(k, v)] :=
      Dict.set_of_not_mem v (by rw [h.keys]; exact hk)
    simp only [hset, evict]
    have hnd : (s.list ++ [k]).Nodup := by
      rw [List.nodup_append]
      refine ⟨h.nodup, by simp, ?_⟩
      intro a ha b hb e
      simp at hb; subst hb; subst e; exact hk ha
    split
    · next hlt =>
      cases hlist : s.list with
      | nil => simp [hlist] at hlt; omega
      | cons k0 t =>
        cases hcache : s.cache with
        | nil =>
          have := h.keys
          rw [hcache, hlist] at this; simp at this
        | cons kv ct =>
          have hkeys := h.keys
          rw [hcache, hlist, List.map_cons, List.cons.injEq] at hkeys
          rw [hlist, List.cons_append, List.nodup_cons] at hnd
          have hne : k ≠ k0 := fun e => by subst e; exact hnd.1 (by simp)
          have her : Dict.erase (kv :: ct ++ [(k, v)]) k0 = ct ++ [(k, v)] := by
            unfold Dict.erase
            rw [List.cons_append, List.filter_cons]
            simp only [hkeys.1, ne_eq, not_true_eq_false, decide_false, Bool.false_eq_true, if_false]
            rw [List.filter_eq_self]
            intro a ha
            simp only [decide_not, Bool.not_eq_eq_eq_not, Bool.not_true, decide_eq_false_iff_not]
            intro e
            rcases List.mem_append.1 ha with ha | ha
            · apply hnd.1
              rw [← e, List.mem_append]; left
              rw [← hkeys.2]
              exact List.mem_map.2 ⟨a, ha, rfl⟩
            · simp at ha; subst ha; exact hne e
          simp only [List.cons_append]
          rw [← List.cons_append, her]
          refine ⟨⟨?_, hnd.2, ?_⟩, by simp, ?_⟩
          · simp [hkeys.2]
          · have := h.bound
            rw [hlist] at this
            simpa using this
          · intro _
            have : Dict.get? (ct ++ [(k, v)]) k = some v := by
              apply Dict.get?_of_mem
              · rw [List.map_append, hkeys.2]; exact hnd.2
              · simp
            simp only [Dict.get!, this]
    · next hlt =>
      refine ⟨⟨?_, hnd, ?_⟩, by simp, ?_⟩
      · simp [h.keys]
      · simpa using hlt
      · intro _
        have : Dict.get? (s.cache ++ [(k, v)]) k = some v := by
          apply Dict.get?_of_mem
          · rw [List.map_append, h.keys]; exact hnd
          · simp
        simp only [Dict.get!, this]

theorem clean_hist {limit : Nat} (hl : 1 ≤ limit) (f : κ → V) (hist : List κ) {s : CState κ V}
    (h : Clean limit s) :
    Clean limit (runHist limit (hist.map fun k => (k, Except.ok (f k))) s).1 := by
  induction hist generalizing s with
  | nil => exact h
  | cons k t ih => exact ih (clean_call hl h k (f k)).1

theorem clean_hist_ne_nil {limit : Nat} (hl : 1 ≤ limit) (f : κ → V) (hist : List κ) (hne : hist ≠ [])
    {s : CState κ V} (h : Clean limit s) :
    (runHist limit (hist.map fun k => (k, Except.ok (f k))) s).1.cache ≠ [] := by
  induction hist generalizing s with
  | nil => exact absurd rfl hne
  | cons k t ih =>
    have hc := clean_call hl h k (f k)
    cases t with
    | nil => exact hc.2.1
    | cons k' t => exact ih (by simp) hc.1

theorem clean_empty (limit : Nat) : Clean limit (CState.empty : CState κ V) :=
  ⟨rfl, List.nodup_nil, Nat.zero_le _⟩

theorem runHist_append (limit : Nat) (a b : List (κ × Except PyErr V)) (s : CState κ V) :
    (runHist limit (a ++ b) s).1 = (runHist limit b (runHist limit a s).1).1 ∧
    (runHist limit (a ++ b) s).2 = (runHist limit a s).2 ++ (runHist limit b (runHist limit a s).1).2 := by
  induction a generalizing s with
  | nil => simp [runHist]
  | cons h t ih =>
    obtain ⟨k, r⟩ := h
    simp only [List.cons_append, runHist]
    exact ⟨(ih _).1, by rw [(ih _).2]⟩

theorem fail_many (limit : Nat) (k : κ) (e : PyErr) (m : Nat) (s : CState κ V)
    (hk : Dict.get? s.cache k = none) :
    (runHist limit (List.replicate m (k, Except.error e)) s).1 =
      { s with list := s.list ++ List.replicate m k } := by
  induction m generalizing s with
  | zero => simp [runHist]
  | succ m ih =>
    have hstep : call1 limit k (.error e) s = ({ s with list := s.list ++ [k] }, .error e) := by
      simp [call1, wrap, hk]
    simp only [List.replicate_succ, runHist, hstep]
    rw [ih { s with list := s.list ++ [k] } hk]
    simp

/-- C27 (second half, partial): a retried call returns its value after `m` failures when the
cache already holds an entry from earlier successful calls, or when `m` is smaller than the
cache size.  Missing: a fresh cache with as many failures as entries (`C27_retry_false`).  What happens
after histories mixing several failing keys is `C27_retry_exact`. -/
theorem C27_retry_partial (limit : Nat) (hl : 1 ≤ limit) (f : κ → V) (hist : List κ) (k : κ) (m : Nat)
    (e : PyErr) (hk : k ∉ hist) (hm : hist ≠ [] ∨ m < limit) :
    (runHist limit (hist.map (fun k => (k, Except.ok (f k))) ++
      (List.replicate m (k, Except.error e) ++ [(k, Except.ok (f k))]))
        (CState.empty : CState κ V)).2.getLast? = some (.ok (f k)) := by
  rw [(runHist_append _ _ _ _).2, (runHist_append _ _ _ _).2]
  have hclean : Clean limit (runHist limit (hist.map fun k => (k, Except.ok (f k)))
      (CState.empty : CState κ V)).1 := clean_hist hl f hist (clean_empty limit)
  have hsub : ∀ (hist : List κ) (s : CState κ V), k ∉ hist → k ∉ s.list →
      k ∉ (runHist limit (hist.map fun k => (k, Except.ok (f k))) s).1.list := by
    intro hist
    induction hist with
    | nil => intro s _ h; exact h
    | cons k' t ih =>
      intro s hh hs
      simp only [List.mem_cons, not_or] at hh
      apply ih _ hh.2
      unfold call1 wrap
      simp only [id]
      split
      · exact hs
      · simp only [evict]
        have h0 : k ∉ s.list ++ [k'] := by simp [hs, hh.1]
        split
        · split
          · exact h0
          · next heq =>
            rw [heq] at h0
            exact fun hh => h0 (List.mem_cons_of_mem _ hh)
        · exact h0
  have hkl := hsub hist CState.empty hk (by simp [CState.empty])
  have hne : hist ≠ [] → (runHist limit (hist.map fun k => (k, Except.ok (f k)))
      (CState.empty : CState κ V)).1.cache ≠ [] := fun h => clean_hist_ne_nil hl f hist h (clean_empty limit)
  have hnil : hist = [] → (runHist limit (hist.map fun k => (k, Except.ok (f k)))
      (CState.empty : CState κ V)).1.list = [] := by rintro rfl; rfl
  generalize (runHist limit (hist.map fun k => (k, Except.ok (f k))) (CState.empty : CState κ V)).1 = s at *
  have hkc : Dict.get? s.cache k = none := by
    rw [Dict.get?_eq_none_iff, hclean.keys]; exact hkl
  rw [fail_many _ _ _ _ _ hkc]
  have hfinal : (call1 limit k (.ok (f k)) { s with list := s.list ++ List.replicate m k }).2 = .ok (f k) := by
    unfold call1 wrap
    simp only [id, hkc, evict]
    split
    · next hlt =>
      cases hlist : s.list with
      | cons k0 t =>
        have hk0 : k ≠ k0 := by
          intro e; rw [hlist] at hkl; simp [e] at hkl
        simp only [List.cons_append, Dict.get!, Dict.get?_erase, if_neg hk0, Dict.get?_set_self]
      | nil =>
        exfalso
        have hc := hclean.keys
        rw [hlist] at hc
        have hc' : s.cache = [] := List.map_eq_nil_iff.1 hc
        rcases hm with hm | hm
        · exact hne hm hc'
        · simp [hlist] at hlt; omega
    · simp only [Dict.get!, Dict.get?_set_self]
  simp only [runHist, hfinal]
  simp

example : (runHist 2 [("a", .ok 1), ("k", .error .keyError), ("k", .error .keyError), ("k", .ok 7)]
    (CState.empty : CState String Nat)).2 =
      [.ok 1, .error .keyError, .error .keyError, .ok 7] := by decide +kernel

theorem retry_cached (limit : Nat) (k : κ) (v w : V) (n : Nat) (s : CState κ V) (h : Dict.get? s.cache k = some w) :
    (runHist limit (List.replicate n (k, Except.ok v)) s).2 = List.replicate n (.ok w) := by
  induction n with
  | zero => rfl
  | succ n ih =>
    have hc : call1 limit k (.ok v) s = (s, .ok w) := by simp [call1, wrap, h]
    simp only [List.replicate_succ, runHist, hc, ih]

/-- A successful call for a key that is not cached, the list full and another key at its front. -/
theorem retry_other (limit : Nat) (k k0 : κ) (t : List κ) (v : V) (c : Dict κ V) (hl : limit ≤ t.length + 1)
    (h : Dict.get? c k = none) (hk : k0 ≠ k) :
    (call1 limit k (.ok v) ⟨c, k0 :: t⟩).2 = .ok v ∧
      Dict.get? (call1 limit k (.ok v) ⟨c, k0 :: t⟩).1.cache k = some v := by
  have hlt : limit < (k0 :: t ++ [k]).length := by simp; omega
  have : Dict.get? (Dict.erase (Dict.set c k v) k0) k = some v := by
    rw [Dict.get?_erase, if_neg (Ne.symm hk), Dict.get?_set_self]
  simp [call1, wrap, h, evict, show limit < t.length + 1 + 1 by omega, Dict.get!, this]

/-- The same with the key itself at the front: it is put last, and the call raises `KeyError`. -/
theorem retry_self (limit : Nat) (k : κ) (t : List κ) (v : V) (c : Dict κ V) (hl : limit ≤ t.length + 1)
    (h : Dict.get? c k = none) :
    ∃ c', Dict.get? c' k = none ∧
      call1 limit k (.ok v) ⟨c, k :: t⟩ = (⟨c', t ++ [k]⟩, .error .keyError) := by
  have : Dict.get? (Dict.erase (Dict.set c k v) k) k = none := by
    rw [Dict.get?_erase, if_pos rfl]
  refine ⟨_, this, ?_⟩
  simp [call1, wrap, h, evict, show limit < t.length + 1 + 1 by omega, Dict.get!, this]

/-- C27 (second half), exactly what retries return.  In whatever state the calls so far have left the cache, the
retries of a key that is not cached, of which the method now succeeds, go as follows.  If the list of keys is
shorter than the cache size they return the value.  If every key in the list is the one retried they raise
`KeyError`, all of them.  Otherwise as many of them raise `KeyError` as there are copies of the key at the front
of the list, and all later ones return the value. -/
theorem C27_retry_exact (limit : Nat) (s : CState κ V) (k : κ) (v : V) (n : Nat) (hk : Dict.get? s.cache k = none) :
    (runHist limit (List.replicate n (k, Except.ok v)) s).2 =
      if s.list.length < limit then List.replicate n (.ok v)
      else if ∀ k' ∈ s.list, k' = k then List.replicate n (.error .keyError)
      else List.replicate (min n (s.list.takeWhile (· = k)).length) (.error .keyError) ++
        List.replicate (n - (s.list.takeWhile (· = k)).length) (.ok v) := by
  cases n with
  | zero => simp [runHist]
  | succ n =>
  split
  · next hlt =>
    have hev : evict limit ⟨Dict.set s.cache k v, s.list ++ [k]⟩ = ⟨Dict.set s.cache k v, s.list ++ [k]⟩ := by
      rw [evict, if_neg (by simp; omega)]
    have hc : call1 limit k (.ok v) s = (⟨Dict.set s.cache k v, s.list ++ [k]⟩, .ok v) := by
      simp [call1, wrap, hk, hev, Dict.get!, Dict.get?_set_self]
    simp only [List.replicate_succ, runHist, hc]
    rw [retry_cached limit k v v n _ (Dict.get?_set_self _ _ _)]
  · next hfull =>
    split
    · next hall =>
      generalize n + 1 = n
      obtain ⟨c, l⟩ := s
      have hl : l = List.replicate l.length k := List.eq_replicate_iff.2 ⟨rfl, hall⟩
      simp only at hfull hk hl
      clear hall
      generalize l.length = m at hl hfull
      subst hl
      induction n generalizing c with
      | zero => rfl
      | succ n ih =>
        cases m with
        | zero =>
          obtain rfl : limit = 0 := by omega
          have : Dict.get? (Dict.erase (Dict.set c k v) k) k = none := by
            rw [Dict.get?_erase, if_pos rfl]
          have hc : call1 0 k (.ok v) ⟨c, []⟩ = (⟨Dict.erase (Dict.set c k v) k, []⟩, .error .keyError) := by
            simp [call1, wrap, hk, evict, Dict.get!, this]
          simp only [List.replicate_succ, List.replicate_zero, runHist, hc]
          exact congrArg _ (ih _ this)
        | succ m =>
          obtain ⟨c', h1, h2⟩ := retry_self limit k (List.replicate m k) v c (by simp; omega) hk
          rw [← List.replicate_succ, ← List.replicate_succ'] at h2
          rw [List.replicate_succ (n := n), runHist]
          simp only [h2]
          rw [ih _ h1, List.replicate_succ (n := n)]
    · next hother =>
      generalize n + 1 = n
      obtain ⟨c, l⟩ := s
      simp only at hfull hk hother ⊢
      induction n generalizing c l with
      | zero => simp [runHist]
      | succ n ih =>
        cases l with
        | nil => exact absurd (fun k' h => by cases h) hother
        | cons k0 t =>
          simp only [List.length_cons] at hfull
          by_cases h0 : k0 = k
          · subst h0
            obtain ⟨c', h1, h2⟩ := retry_self limit k0 t v c (by omega) hk
            have ho : ¬ ∀ k' ∈ t, k' = k0 := fun h => hother (by
              intro k' hk'
              rcases List.mem_cons.1 hk' with rfl | hk'
              · rfl
              · exact h k' hk')
            have htw : (t ++ [k0]).takeWhile (· = k0) = t.takeWhile (· = k0) := by
              rw [List.takeWhile_append, if_neg]
              intro e
              apply ho
              have := (List.takeWhile_prefix (l := t) (fun x => decide (x = k0))).eq_of_length e
              have hall := List.all_takeWhile (p := fun x => decide (x = k0)) (l := t)
              rw [this, List.all_eq_true] at hall
              intro k' hk'
              simpa using hall k' hk'
            rw [List.replicate_succ, runHist]
            simp only [h2]
            rw [ih c' (t ++ [k0]) h1 (by simp; omega) (fun h => ho fun k' hk' => h k' (by simp [hk'])), htw]
            simp only [List.takeWhile_cons, decide_true, if_true, List.length_cons]
            rw [Nat.add_min_add_right, Nat.add_sub_add_right, List.replicate_succ]
            rfl
          · obtain ⟨h1, h2⟩ := retry_other limit k k0 t v c (by omega) hk h0
            rw [List.replicate_succ, runHist]
            simp only [h1]
            rw [retry_cached limit k v v n _ h2]
            simp [h0, List.replicate_succ]

/-- Every cached key is in the list. -/
theorem cached_listed (limit : Nat) (hist : List (κ × Except PyErr V)) (s : CState κ V)
    (hs : ∀ k w, Dict.get? s.cache k = some w → k ∈ s.list) (k : κ) (w : V)
    (h : Dict.get? (runHist limit hist s).1.cache k = some w) : k ∈ (runHist limit hist s).1.list := by
  induction hist generalizing s with
  | nil => exact hs k w h
  | cons x t ih =>
    obtain ⟨kx, res⟩ := x
    refine ih _ ?_ h
    intro k' w' h'
    unfold call1 wrap at h' ⊢
    simp only [id] at h' ⊢
    cases hg : Dict.get? s.cache kx with
    | some u =>
      simp only [hg] at h' ⊢
      exact hs k' w' h'
    | none =>
      simp only [hg] at h' ⊢
      cases res with
      | error e => exact List.mem_append_left _ (hs k' w' h')
      | ok v =>
        simp only at h' ⊢
        have hset : ∀ k' w', Dict.get? (Dict.set s.cache kx v) k' = some w' → k' ∈ s.list ++ [kx] := by
          intro k' w' h
          by_cases e : k' = kx
          · simp [e]
          · rw [Dict.get?_set_ne _ _ (Ne.symm e)] at h
            exact List.mem_append_left _ (hs k' w' h)
        unfold evict at h' ⊢
        split at h' <;> rename_i hlt
        · rw [if_pos hlt]
          split at h'
          · next e => exact absurd e (by simp)
          · next k0 t' e =>
            simp only at *
            rw [Dict.get?_erase] at h'
            split at h'
            · cases h'
            · next hne =>
              have := hset k' w' h'
              rw [e] at this
              exact (List.mem_cons.1 this).resolve_left hne
        · rw [if_neg hlt]
          exact hset k' w' h'

/-- C27 (second half): after any history at all, of any keys failing and succeeding, if some other key is cached
then only finitely many retries of a key raise `KeyError` once the method succeeds: no more than there are entries
in the list. -/
theorem C27_recovers (limit : Nat) (hist : List (κ × Except PyErr V)) (k k1 : κ) (v w : V) (n : Nat) (hne : k1 ≠ k)
    (hk : Dict.get? (runHist limit hist (CState.empty : CState κ V)).1.cache k = none)
    (h1 : Dict.get? (runHist limit hist (CState.empty : CState κ V)).1.cache k1 = some w)
    (hn : (runHist limit hist (CState.empty : CState κ V)).1.list.length ≤ n) :
    (runHist limit (hist ++ List.replicate (n + 1) (k, Except.ok v)) (CState.empty : CState κ V)).2.getLast? =
      some (.ok v) := by
  have hmem := cached_listed limit hist CState.empty (by intro k w h; simp [CState.empty] at h) k1 w h1
  rw [(runHist_append _ _ _ _).2, C27_retry_exact limit _ k v (n + 1) hk]
  have htl : ((runHist limit hist (CState.empty : CState κ V)).1.list.takeWhile (· = k)).length ≤ n :=
    (List.takeWhile_prefix (l := (runHist limit hist (CState.empty : CState κ V)).1.list)
      (fun x => decide (x = k))).length_le.trans hn
  split
  · simp [List.replicate_succ']
  · rw [if_neg fun h => hne (h k1 hmem), Nat.succ_sub htl]
    simp [List.replicate_succ']

/-- Beside it: the key retried is at the front of the list twice, another is cached. -/
example : (runHist 2 [("k", .error .other), ("k", .error .other), ("a", .ok 1), ("k", .ok 7), ("k", .ok 7), ("k", .ok 7)]
    (CState.empty : CState String Nat)).2 =
      [.error .other, .error .other, .ok 1, .error .keyError, .ok 7, .ok 7] := by decide +kernel

/-! ## C28: bounded caches -/

/-- C28: in every history without exceptions the cache and its bookkeeping list have at most
`limit` entries, the list never repeats a key and lists exactly the cached keys. -/
theorem C28_bounded (limit : Nat) (hl : 1 ≤ limit) (f : κ → V) (hist : List κ) :
    let s := (runHist limit (hist.map fun k => (k, Except.ok (f k))) (CState.empty : CState κ V)).1
    s.cache.length ≤ limit ∧ s.list.length ≤ limit ∧ s.list.Nodup ∧ s.cache.map Prod.fst = s.list := by
  intro s
  have h : Clean limit s := clean_hist hl f hist (clean_empty limit)
  refine ⟨?_, h.bound, h.nodup, h.keys⟩
  have := congrArg List.length h.keys
  rw [List.length_map] at this
  rw [this]; exact h.bound

/-- C28 needs "without exceptions": after three failures a cache of size two holds three
entries. -/
theorem C28_after_exceptions_unbounded :
    (runHist 2 [(1, .error .keyError), (2, .error .keyError), (3, .error .keyError),
      (4, .ok 0), (5, .ok 0), (6, .ok 0)] (CState.empty : CState Nat Nat)).1.cache.length = 3 := by
  decide +kernel

/-- C28 with exceptions: the excess is at most the number of failed calls. -/
theorem C28_bounded_with_failures (limit : Nat) (hist : List (κ × Except PyErr V)) :
    (runHist limit hist (CState.empty : CState κ V)).1.cache.length ≤
      limit + (hist.filter fun h => match h.2 with | .ok _ => false | .error _ => true).length := by
  have key : ∀ (hist : List (κ × Except PyErr V)) (s : CState κ V) (b : Nat),
      s.list.length ≤ limit + b → (s.cache.map Prod.fst).Nodup → s.cache.map Prod.fst ⊆ s.list →
      (runHist limit hist s).1.cache.length ≤ limit + b +
        (hist.filter fun h => match h.2 with | .ok _ => false | .error _ => true).length := by
    intro hist
    induction hist with
    | nil =>
      intro s b hb hnd hsub
      simp only [runHist, List.filter_nil, List.length_nil, Nat.add_zero]
      have := (List.subperm_of_subset hnd hsub).length_le
      rw [List.length_map] at this
      exact this.trans hb
    | cons h t ih =>
      obtain ⟨k, res⟩ := h
      intro s b hb hnd hsub
      simp only [runHist]
      cases hg : Dict.get? s.cache k with
      | some v =>
        have hst : (call1 limit k res s).1 = s := by simp [call1, wrap, hg]
        rw [hst]
        refine (ih s b hb hnd hsub).trans ?_
        rw [List.filter_cons]; split <;> simp
      | none =>
        cases res with
        | error e =>
          have hst : (call1 limit k (.error e) s).1 = { s with list := s.list ++ [k] } := by
            simp [call1, wrap, hg]
          rw [hst]
          refine (ih { s with list := s.list ++ [k] } (b + 1) (by simp; omega) hnd
            (fun x hx => List.mem_append_left _ (hsub hx))).trans ?_
          simp only [List.filter_cons, if_true, List.length_cons]
          omega
        | ok v =>
          have hst : (call1 limit k (.ok v) s).1 = evict limit ⟨Dict.set s.cache k v, s.list ++ [k]⟩ := by
            simp [call1, wrap, hg]
          rw [hst]
          simp only [List.filter_cons, Bool.false_eq_true, if_false]
          have hnd' := Dict.nodup_keys_set k v hnd
          have hsub' : (Dict.set s.cache k v).map Prod.fst ⊆ s.list ++ [k] := by
            intro x hx
            rcases (Dict.mem_keys_set _ _ _ _).1 hx with h | h
            · simp [h]
            · exact List.mem_append_left _ (hsub h)
          apply ih
          · unfold evict
            split
            · split
              · next h => simp at h
              · next h =>
                have := congrArg List.length h
                simp at this
                simp only at *
                omega
            · next h => simp only at h ⊢; omega
          · unfold evict
            split
            · split
              · exact hnd'
              · simp only [Dict.erase]
                exact hnd'.sublist (List.Sublist.map _ List.filter_sublist)
            · exact hnd'
          · unfold evict
            split
            · split
              · exact hsub'
              · next k0 tl heq =>
                simp only at heq ⊢
                intro x hx
                obtain ⟨kv, hkv, rfl⟩ := List.mem_map.1 hx
                have hf := List.mem_filter.1 hkv
                have := hsub' (List.mem_map.2 ⟨kv, hf.1, rfl⟩)
                rw [heq] at this
                have hne : kv.1 ≠ k0 := by simpa using hf.2
                simpa [hne] using this
            · exact hsub'
  have := key hist CState.empty 0 (by simp [CState.empty]) (by simp [CState.empty]) (by simp [CState.empty])
  simpa using this

/-! ## C29: constants -/

/-- C29 is false: for every key and every method, after a first call the cached value keeps being
returned when the constants have changed (`f` is the method as a function of the constants). -/
theorem C29_constants_false {τ : Type} (limit : Nat) (hl : 1 ≤ limit) (k : κ) (f : τ → V) (c c' : τ) :
    let s1 := callC limit k f (CState.empty, c)
    (callC limit k f (s1.1.1, c')).2 = .ok (f c) := by
  have h1 : ¬ limit < 1 := by omega
  simp [callC, wrap, CState.empty, Dict.set, evict, h1, Dict.get?]

/-- C29, the other route: a value given for a name that is not in the key list (such as a
constant's) does not change the key, so it is ignored when the key is cached. -/
theorem C29_override_false [DecidableEq K] (names : List String) (limit : Nat) (hl : 1 ≤ limit)
    (f : Params K → V) (p : Params K) (c : String) (hc : c ∉ names) (x : PVal K) :
    (runHist limit [(cacheKey names p, Except.ok (f p)),
      (cacheKey names (Dict.set p c x), Except.ok (f (Dict.set p c x)))] CState.empty).2 =
      [.ok (f p), .ok (f p)] := by
  have hkey : cacheKey names (Dict.set p c x) = cacheKey names p := by
    apply cacheKey_congr
    intro n hn
    exact Dict.get?_set_ne _ _ (fun e => hc (e ▸ hn))
  have h1 : ¬ limit < 1 := by omega
  simp [runHist, hkey, call1, wrap, CState.empty, Dict.set, evict, h1, Dict.get?, Dict.get!]

example : ∃ (f : Params Nat → Option (PVal Nat)) (p : Params Nat), f p ≠ f (Dict.set p "efac" (.scalar 2)) ∧
    (runHist 2 [(cacheKey ["log10_A"] p, Except.ok (f p)),
      (cacheKey ["log10_A"] (Dict.set p "efac" (.scalar 2)), Except.ok (f (Dict.set p "efac" (.scalar 2))))]
        CState.empty).2 = [.ok (f p), .ok (f p)] :=
  ⟨fun p => Dict.get? p "efac", [("log10_A", .scalar 1)], by decide +kernel, by decide +kernel⟩

/-- C29 (partial): a call whose key is not in the cache uses the current constants; in particular
constants set before the first call take effect.  Missing: keys already cached. -/
theorem C29_uncached_partial {τ : Type} (limit : Nat) (hl : 1 ≤ limit) (k : κ) (f : τ → V) (c : τ)
    (s : CState κ V) (hs : Clean limit s) (hk : k ∉ s.list) :
    (callC limit k f (s, c)).2 = .ok (f c) := by
  have := (clean_call hl hs k (f c)).2.2 hk
  unfold call1 wrap at this
  unfold callC wrap
  simp only [id] at this ⊢
  cases hg : Dict.get? s.cache k <;> simp [hg] at this ⊢ <;> exact this

/-! ## C30, C31: methods that return an internal buffer -/

/-- C30 is false with the default cache size: calling for `a`, then `b`, then `a` again returns
`b`'s array. -/
theorem C30_buffer_false {B : Type} (compute : κ → B) (a b : κ) (hab : a ≠ b) (b0 : B) :
    (runBuf 2 compute [a, b, a] ⟨CState.empty, b0⟩).2 =
      [.ok (compute a), .ok (compute b), .ok (compute b)] := by
  have hba : b ≠ a := Ne.symm hab
  simp [runBuf, callBuf, wrap, CState.empty, Dict.set, evict, Dict.get?, Dict.get!, hab,
    Except.map]

theorem runBuf_append {B : Type} (limit : Nat) (compute : κ → B) (a b : List κ) (s : BufState κ B) :
    (runBuf limit compute (a ++ b) s).2 =
      (runBuf limit compute a s).2 ++ (runBuf limit compute b (runBuf limit compute a s).1).2 := by
  induction a generalizing s with
  | nil => rfl
  | cons k t ih => simp only [List.cons_append, runBuf, ih]

theorem buf_sound {B : Type} (limit : Nat) (compute : κ → B) (k : κ) (h : List κ) (s : BufState κ B)
    (hk : k ∉ h) (hs : k ∉ s.cs.list ∧ Dict.get? s.cs.cache k = none) :
    k ∉ (runBuf limit compute h s).1.cs.list ∧
      Dict.get? (runBuf limit compute h s).1.cs.cache k = none := by
  induction h generalizing s with
  | nil => exact hs
  | cons k' t ih =>
    simp only [List.mem_cons, not_or] at hk
    apply ih _ hk.2
    unfold callBuf wrap
    simp only
    cases hg : Dict.get? s.cs.cache k' with
    | some v => exact hs
    | none =>
      simp only [evict]
      have h0 : k ∉ s.cs.list ++ [k'] := by simp [hs.1, hk.1]
      have h1 : Dict.get? (Dict.set s.cs.cache k' ()) k = none := by
        rw [Dict.get?_set_ne _ _ (Ne.symm hk.1)]; exact hs.2
      split
      · split
        · exact ⟨h0, h1⟩
        · next heq =>
          rw [heq] at h0
          refine ⟨fun hh => h0 (List.mem_cons_of_mem _ hh), ?_⟩
          rw [Dict.get?_erase]; split
          · rfl
          · exact h1
      · exact ⟨h0, h1⟩

/-- C30 (partial): a call returns the requested array when all earlier calls for the same
parameters are the immediately preceding ones.  Missing: a key that recurs after a different
one (`C30_buffer_false`). -/
theorem C30_buffer_partial {B : Type} (limit : Nat) (hl : 1 ≤ limit) (compute : κ → B) (h : List κ)
    (k : κ) (n : Nat) (hk : k ∉ h) (b0 : B) :
    (runBuf limit compute (h ++ List.replicate (n + 1) k) ⟨CState.empty, b0⟩).2 =
      (runBuf limit compute h ⟨CState.empty, b0⟩).2 ++ List.replicate (n + 1) (.ok (compute k)) := by
  rw [runBuf_append]
  congr 1
  have hs := buf_sound limit compute k h ⟨CState.empty, b0⟩ hk (by simp [CState.empty])
  generalize (runBuf limit compute h ⟨CState.empty, b0⟩).1 = s at hs
  obtain ⟨hs1, hs2⟩ := hs
  -- the first call computes and caches
  have hfirst : (callBuf limit k (compute k) s).2 = .ok (compute k) ∧
      (callBuf limit k (compute k) s).1.buf = compute k ∧
      Dict.get? (callBuf limit k (compute k) s).1.cs.cache k = some () := by
    unfold callBuf wrap
    simp only [hs2]
    have : Dict.get? (evict limit ⟨Dict.set s.cs.cache k (), s.cs.list ++ [k]⟩).cache k = some () := by
      unfold evict
      split
      · next hlt =>
        cases hlist : s.cs.list with
        | nil => simp [hlist] at hlt; omega
        | cons k0 t =>
          have hne : k ≠ k0 := by intro e; rw [hlist] at hs1; simp [e] at hs1
          simp only [List.cons_append]
          rw [Dict.get?_erase, if_neg hne, Dict.get?_set_self]
      · exact Dict.get?_set_self _ _ _
    simp [Dict.get!, this, Except.map]
  have hrest : ∀ (n : Nat) (s : BufState κ B), Dict.get? s.cs.cache k = some () → s.buf = compute k →
      (runBuf limit compute (List.replicate n k) s).2 = List.replicate n (.ok (compute k)) := by
    intro n
    induction n with
    | zero => intro s _ _; rfl
    | succ n ih =>
      intro s h1 h2
      have : callBuf limit k (compute k) s = (s, .ok (compute k)) := by
        simp [callBuf, wrap, h1, Except.map, h2]
      simp only [List.replicate_succ, runBuf, this, ih s h1 h2]
  simp only [List.replicate_succ, runBuf, hfirst.1, hrest n _ hfirst.2.2 hfirst.2.1]

/-- Specification: a memory of the `limit` keys computed last.  A key asked for is computed unless it is among
them.  `keys` are the keys computed so far, the newest first. -/
def asked (limit : Nat) (keys : List κ) (k : κ) : List κ :=
  if k ∈ keys.take limit then keys else k :: keys

/-- The keys computed in the course of a history, the newest first. -/
def computed (limit : Nat) (hist : List κ) : List κ := hist.foldl (asked limit) []

/-- The state of the object after the keys `keys` were computed. -/
structure Holds {B : Type} (limit : Nat) (compute : κ → B) (keys : List κ) (s : BufState κ B) : Prop where
  list : s.cs.list = (keys.take limit).reverse
  nodup : (keys.take limit).Nodup
  mem : ∀ k, Dict.get? s.cs.cache k = some () ↔ k ∈ keys.take limit
  buf : ∀ k, keys.head? = some k → s.buf = compute k

theorem holds_call {B : Type} (limit : Nat) (hl : 1 ≤ limit) (compute : κ → B) (keys : List κ) (s : BufState κ B)
    (hs : Holds limit compute keys s) (k : κ) :
    Holds limit compute (asked limit keys k) (callBuf limit k (compute k) s).1 ∧
      ∀ k', (asked limit keys k).head? = some k' → (callBuf limit k (compute k) s).2 = .ok (compute k') := by
  by_cases hk : k ∈ keys.take limit
  · have hg := (hs.mem k).2 hk
    have hc : callBuf limit k (compute k) s = (s, .ok s.buf) := by
      simp [callBuf, wrap, hg, Except.map]
    rw [hc, asked, if_pos hk]
    exact ⟨hs, fun k' h => by rw [hs.buf k' h]⟩
  · have hg : Dict.get? s.cs.cache k = none := by
      cases h : Dict.get? s.cs.cache k with
      | none => rfl
      | some u => exact absurd ((hs.mem k).1 h) hk
    obtain ⟨l, rfl⟩ : ∃ l, limit = l + 1 := ⟨limit - 1, by omega⟩
    rw [asked, if_neg hk]
    -- the state after the eviction
    have key : ∃ c, evict (l + 1) ⟨Dict.set s.cs.cache k (), s.cs.list ++ [k]⟩ = c ∧
        c.list = ((k :: keys).take (l + 1)).reverse ∧
        ∀ k', Dict.get? c.cache k' = some () ↔ k' ∈ (k :: keys).take (l + 1) := by
      refine ⟨_, rfl, ?_⟩
      by_cases hlen : l + 1 ≤ keys.length
      · -- full: the oldest of the last computed goes
        have ht : keys.take (l + 1) = keys.take l ++ [keys[l]] := by
          rw [List.take_add_one, List.getElem?_eq_getElem (by omega)]
          rfl
        have hlist : s.cs.list = keys[l] :: (keys.take l).reverse := by
          rw [hs.list, ht]; simp
        have hlt : l + 1 < (s.cs.list ++ [k]).length := by
          rw [hlist]; simp; omega
        have hnd := hs.nodup
        rw [ht] at hnd
        have hnot : keys[l] ∉ keys.take l := fun h =>
          (List.disjoint_of_nodup_append hnd) h (by simp)
        have hkne : k ≠ keys[l] := fun e => hk (by rw [ht, ← e]; exact List.mem_append_right _ (List.mem_singleton_self _))
        have hev : evict (l + 1) ⟨Dict.set s.cs.cache k (), s.cs.list ++ [k]⟩ =
            ⟨Dict.erase (Dict.set s.cs.cache k ()) keys[l], (keys.take l).reverse ++ [k]⟩ := by
          rw [evict, if_pos hlt]
          simp only [hlist, List.cons_append]
        rw [hev]
        refine ⟨by simp, ?_⟩
        intro k'
        rw [Dict.get?_erase, List.take_succ_cons, List.mem_cons]
        by_cases h0 : k' = keys[l]
        · rw [if_pos h0]
          constructor
          · intro h; cases h
          · rintro (h | h)
            · exact absurd (h.symm.trans h0) hkne
            · exact absurd (h0 ▸ h) hnot
        · rw [if_neg h0]
          by_cases h1 : k' = k
          · subst h1; simp [Dict.get?_set_self]
          · rw [Dict.get?_set_ne _ _ (Ne.symm h1), hs.mem, ht]
            rw [List.mem_append, List.mem_singleton]
            simp only [h0, h1, or_false, false_or]
      · have ht : keys.take (l + 1) = keys := List.take_of_length_le (by omega)
        have ht' : keys.take l = keys := List.take_of_length_le (by omega)
        have hlt : ¬ l + 1 < (s.cs.list ++ [k]).length := by
          rw [hs.list, ht]; simp; omega
        simp only [evict, if_neg hlt]
        refine ⟨by rw [hs.list, ht, List.take_succ_cons, ht']; simp, ?_⟩
        intro k'
        rw [List.take_succ_cons, ht', List.mem_cons]
        by_cases h1 : k' = k
        · subst h1; simp [Dict.get?_set_self]
        · rw [Dict.get?_set_ne _ _ (Ne.symm h1), hs.mem, ht]
          simp [h1]
    obtain ⟨c, hc, hcl, hcm⟩ := key
    have hcall : callBuf (l + 1) k (compute k) s = (⟨c, compute k⟩, .ok (compute k)) := by
      have := (hcm k).2 (by simp)
      simp [callBuf, wrap, hg, hc, Dict.get!, this, Except.map]
    rw [hcall]
    refine ⟨⟨hcl, ?_, hcm, ?_⟩, ?_⟩
    · rw [List.take_succ_cons, List.nodup_cons]
      refine ⟨fun h => hk (List.mem_of_mem_take (l := keys.take (l+1)) (i := l) (by rw [List.take_take]; simpa using h)), ?_⟩
      have := hs.nodup.sublist (List.take_sublist l _)
      rw [List.take_take] at this
      simpa using this
    · rintro k' h
      cases h; rfl
    · rintro k' h
      cases h; rfl

theorem holds_hist {B : Type} (limit : Nat) (hl : 1 ≤ limit) (compute : κ → B) (hist : List κ) (keys : List κ)
    (s : BufState κ B) (hs : Holds limit compute keys s) :
    Holds limit compute (hist.foldl (asked limit) keys) (runBuf limit compute hist s).1 := by
  induction hist generalizing keys s with
  | nil => exact hs
  | cons k t ih => exact ih _ _ (holds_call limit hl compute keys s hs k).1

/-- C30, exactly what is returned: whatever the history, every call returns the array of the parameters that
were computed last, where a call computes unless its parameters are among the `limit` computed last. -/
theorem C30_exact {B : Type} (limit : Nat) (hl : 1 ≤ limit) (compute : κ → B) (hist : List κ) (k : κ) (b0 : B) :
    ∃ k', (computed limit (hist ++ [k])).head? = some k' ∧
      (runBuf limit compute (hist ++ [k]) ⟨CState.empty, b0⟩).2 =
        (runBuf limit compute hist ⟨CState.empty, b0⟩).2 ++ [.ok (compute k')] := by
  have h0 : Holds limit compute [] (⟨CState.empty, b0⟩ : BufState κ B) :=
    ⟨by simp [CState.empty], by simp, by intro k; simp [CState.empty], by intro k h; cases h⟩
  have h1 := holds_hist limit hl compute hist [] _ h0
  have h2 := (holds_call limit hl compute _ _ h1 k).2
  have hne : ∃ k', (asked limit (computed limit hist) k).head? = some k' := by
    unfold asked
    split
    · next h =>
      cases hc : computed limit hist with
      | nil => rw [hc] at h; simp at h
      | cons a t => exact ⟨a, rfl⟩
    · exact ⟨k, rfl⟩
  obtain ⟨k', hk'⟩ := hne
  refine ⟨k', by rw [computed, List.foldl_append]; exact hk', ?_⟩
  rw [runBuf_append]
  congr 1
  show [(callBuf limit k (compute k) _).2] = _
  rw [h2 k' hk']

/-- C30, exactly when: a call is answered with an array of other parameters if and only if its parameters are
among the `limit` computed last without being the last. -/
theorem C30_wrong_iff {B : Type} (limit : Nat) (hl : 1 ≤ limit) (compute : κ → B) (hinj : Function.Injective compute)
    (hist : List κ) (k : κ) (b0 : B) :
    (runBuf limit compute (hist ++ [k]) ⟨CState.empty, b0⟩).2.getLast? ≠ some (.ok (compute k)) ↔
      k ∈ (computed limit hist).take limit ∧ (computed limit hist).head? ≠ some k := by
  obtain ⟨k', h1, h2⟩ := C30_exact limit hl compute hist k b0
  rw [h2, List.getLast?_append]
  rw [computed, List.foldl_append] at h1
  change (asked limit (computed limit hist) k).head? = some k' at h1
  have e : ∀ x y : B, (some (Except.ok x : Except PyErr B) = some (.ok y)) ↔ x = y := by simp
  simp only [List.getLast?_singleton, Option.some_or, Ne]
  unfold asked at h1
  split at h1
  · next h =>
    rw [h1, e]
    simp [h, hinj.eq_iff]
  · next h =>
    have : k = k' := by simpa using h1
    subst this
    simp [h]

example : computed 2 ["a", "b", "a", "c", "a"] = ["a", "c", "b", "a"] := by decide +kernel
example : (runBuf 2 id ["a", "b", "a", "c", "a"] ⟨CState.empty, ""⟩).2 =
    [.ok "a", .ok "b", .ok "b", .ok "c", .ok "a"] := by decide +kernel

/-- C31: with a cache of size one the object is, after every call, in the state the method
produces for the parameters of that call, whatever the history. -/
theorem C31_limit_one {B : Type} (compute : κ → B) (hist : List κ) (b0 : B) :
    (runBuf 1 compute hist ⟨CState.empty, b0⟩).2 = hist.map (fun k => .ok (compute k)) ∧
    (∀ k, hist.getLast? = some k → (runBuf 1 compute hist ⟨CState.empty, b0⟩).1.buf = compute k) := by
  have key : ∀ (hist : List κ) (s : BufState κ B),
      (s.cs = CState.empty ∨ ∃ k0, s.cs = ⟨[(k0, ())], [k0]⟩ ∧ s.buf = compute k0) →
      (runBuf 1 compute hist s).2 = hist.map (fun k => .ok (compute k)) ∧
      (∀ k, hist.getLast? = some k → (runBuf 1 compute hist s).1.buf = compute k) := by
    intro hist
    induction hist with
    | nil => intro s _; exact ⟨rfl, by intro k h; simp at h⟩
    | cons k t ih =>
      intro s hs
      have hstep : callBuf 1 k (compute k) s = (⟨⟨[(k, ())], [k]⟩, compute k⟩, .ok (compute k)) := by
        rcases hs with hs | ⟨k0, hs, hb⟩
        · simp [callBuf, wrap, hs, CState.empty, Dict.set, evict, Dict.get!, Dict.get?, Except.map]
        · by_cases e : k0 = k
          · subst e
            simp [callBuf, wrap, hs, Dict.get?, Except.map, hb]
            cases s; simp_all
          · have e' : k ≠ k0 := Ne.symm e
            simp [callBuf, wrap, hs, Dict.get?, Except.map, e, e', Dict.set, evict, Dict.erase, Dict.get!]
      have hi := ih ⟨⟨[(k, ())], [k]⟩, compute k⟩ (Or.inr ⟨k, rfl, rfl⟩)
      simp only [runBuf, hstep, hi.1, List.map_cons, true_and]
      intro k' hk'
      cases t with
      | nil => simp at hk'; subst hk'; rfl
      | cons a t => exact hi.2 k' (by simpa using hk')
  exact key hist _ (Or.inl rfl)

/-! ## C32: memoisation by identity -/

theorem keycheck_iff (a b : Arg) : keycheck a b = true ↔ a = b := by
  cases a with
  | obj x => cases b <;> simp [keycheck]
  | seq x =>
    cases b with
    | obj y => simp [keycheck]
    | seq y =>
      simp only [keycheck, Bool.and_eq_true, beq_iff_eq, List.all_eq_true, Arg.seq.injEq]
      constructor
      · rintro ⟨hl, h⟩
        apply List.ext_getElem hl
        intro i h1 h2
        have := h (x[i], y[i]) (by
          rw [List.mem_iff_getElem]
          exact ⟨i, by rw [List.length_zip]; omega, by simp⟩)
        exact this
      · rintro rfl
        refine ⟨rfl, ?_⟩
        intro p hp
        obtain ⟨i, hi, rfl⟩ := List.getElem_of_mem hp
        simp

/-- C32: as long as argument objects are not modified, a memoised method returns (or raises)
what the bare method does in every history of calls with any arguments. -/
theorem C32_memo (method : Arg → Except PyErr V) (args : List Arg) :
    (runMemo (args.map fun a => (method, a)) none).2 = args.map method := by
  have key : ∀ (args : List Arg) (m : Option (Arg × V)), (∀ a v, m = some (a, v) → method a = .ok v) →
      (runMemo (args.map fun a => (method, a)) m).2 = args.map method := by
    intro args
    induction args with
    | nil => intro m _; rfl
    | cons a t ih =>
      intro m hm
      have step : (memoCall method m a).2 = method a ∧
          ∀ b v, (memoCall method m a).1 = some (b, v) → method b = .ok v := by
        cases hma : method a with
        | error e =>
          cases m with
          | none => simp [memoCall, hma]
          | some kv =>
            obtain ⟨k, v⟩ := kv
            have hk : keycheck k a = false := by
              cases hkk : keycheck k a with
              | false => rfl
              | true =>
                have := hm k v rfl
                rw [(keycheck_iff k a).1 hkk, hma] at this; cases this
            simp only [memoCall, hk, hma, Bool.false_eq_true, if_false, true_and]
            exact hm
        | ok w =>
          cases m with
          | none =>
            simp only [memoCall, hma, true_and, Option.some.injEq, Prod.mk.injEq]
            rintro b v ⟨rfl, rfl⟩; exact hma
          | some kv =>
            obtain ⟨k, v⟩ := kv
            unfold memoCall
            simp only
            split
            · next hk =>
              have e := (keycheck_iff k a).1 hk
              have h2 := hm k v rfl
              rw [e, hma] at h2
              cases h2
              exact ⟨rfl, hm⟩
            · rw [hma]
              refine ⟨rfl, ?_⟩
              intro b v' hb
              cases hb; exact hma
      simp only [List.map_cons, runMemo, step.1, ih _ step.2]
  exact key args none (by simp)

/-- C32: the proviso is needed — after an in-place change of the argument the old value is
returned. -/
theorem C32_in_place_needed (a : Arg) (v w : V) :
    (runMemo [(fun _ => .ok v, a), (fun _ => .ok w, a)] none).2 = [.ok v, .ok v] := by
  have : keycheck a a = true := (keycheck_iff a a).2 rfl
  simp [runMemo, memoCall, this]

example : (runMemo ([Arg.seq [1, 2], .seq [1, 2], .obj 1, .seq [1, 3]].map fun a =>
    (fun x : Arg => (Except.ok x : Except PyErr Arg), a)) none).2 =
      [.ok (.seq [1, 2]), .ok (.seq [1, 2]), .ok (.obj 1), .ok (.seq [1, 3])] := by decide +kernel

/-! ## C33: the caches of a pulsar model -/

theorem eval_callAll_congr {C P : Type} (h : C → P → Except PyErr V) (cs : List C) (p p' : P)
    (k : List V → Prog C P V) (hc : ∀ c ∈ cs, h c p = h c p') :
    (Prog.callAll cs p k).eval h = (Prog.callAll cs p' k).eval h := by
  induction cs generalizing k with
  | nil => rfl
  | cons c t ih =>
    simp only [Prog.callAll, Prog.eval, hc c (by simp)]
    cases h c p' with
    | error e => rfl
    | ok v => exact ih _ fun c' hc' => hc c' (by simp [hc'])

/-- Conditions on the signals: each method depends only on the parameters under which the signal
declares it cached, and the delay only on those the collection knows. -/
def SigOk (s : Sig K V) : Prop :=
  DependsOnly s.ndiagNames s.ndiag ∧ DependsOnly s.delayNames s.delay ∧
  DependsOnly s.collDelayNames s.delay ∧ DependsOnly s.basisNames s.basis

variable [DecidableEq K]

theorem collection_below (ops : CollOps V) (res : V) (sigs : List (Sig K V)) (m : Meth) (p : Params K) :
    (methBody ops res sigs m p).Below methRank (methRank m) := by
  cases m with
  | sigNdiag i => exact trivial
  | sigDelay i => exact trivial
  | sigBasis i => exact trivial
  | ndiag =>
    refine Prog.below_callAll _ _ _ _ _ ?_ (fun _ => trivial)
    intro c hc; obtain ⟨i, -, rfl⟩ := List.mem_map.1 hc; simp [methRank]
  | delay =>
    refine Prog.below_callAll _ _ _ _ _ ?_ (fun _ => trivial)
    intro c hc; obtain ⟨i, -, rfl⟩ := List.mem_map.1 hc; simp [methRank]
  | basis =>
    refine Prog.below_callAll _ _ _ _ _ ?_ (fun _ => trivial)
    intro c hc; obtain ⟨i, -, rfl⟩ := List.mem_map.1 hc; simp [methRank]
  | detres => exact ⟨by simp [methRank], fun _ => trivial⟩
  | TNr =>
    refine ⟨by simp [methRank], fun T => ?_⟩
    dsimp only
    split
    · exact trivial
    · exact ⟨by simp [methRank], fun _ => ⟨by simp [methRank], fun _ => trivial⟩⟩
  | TNT =>
    refine ⟨by simp [methRank], fun T => ?_⟩
    dsimp only
    split
    · exact trivial
    · exact ⟨by simp [methRank], fun _ => trivial⟩
  | rNr => exact ⟨by simp [methRank], fun _ => ⟨by simp [methRank], fun _ => trivial⟩⟩

theorem evalTop_eq {C P : Type} [DecidableEq C] (F : Family C P κ V)
    (hb : ∀ c p, (F.body c p).Below F.rank (F.rank c)) (c : C) (p : P) :
    F.evalTop c p = (F.body c p).eval F.evalTop := by
  rw [Family.evalTop, Family.evalN]
  apply Prog.eval_congr F.rank (F.rank c) _ _ _ _ (hb c p)
  intro c' p' hc'
  rw [F.evalN_eq hb (F.rank c) c' p' hc']

theorem collection_det (ops : CollOps V) (res : V) (sigs : List (Sig K V)) (hs : ∀ s ∈ sigs, SigOk s)
    (m : Meth) (p p' : Params K) (h : ∀ n ∈ methNames sigs m, Dict.get? p n = Dict.get? p' n) :
    (collection ops res sigs).evalTop m p = (collection ops res sigs).evalTop m p' := by
  have hb : ∀ c q, ((collection ops res sigs).body c q).Below (collection ops res sigs).rank
      ((collection ops res sigs).rank c) := collection_below ops res sigs
  have heq := evalTop_eq (collection ops res sigs) hb
  -- signal level
  have sN : ∀ (i : Nat) p p', (∀ n ∈ methNames sigs (.sigNdiag i), Dict.get? p n = Dict.get? p' n) →
      (collection ops res sigs).evalTop (.sigNdiag i) p = (collection ops res sigs).evalTop (.sigNdiag i) p' := by
    intro i p p' h
    rw [heq, heq]
    simp only [collection, methBody, Prog.eval]
    cases hi : sigs[i]? with
    | none => rfl
    | some s =>
      simp only [methNames, hi, Option.map_some, Option.getD_some] at h
      exact (hs s (List.mem_of_getElem? hi)).1 p p' h
  have sD : ∀ (i : Nat) p p', (∀ s, sigs[i]? = some s → ∀ n ∈ s.collDelayNames, Dict.get? p n = Dict.get? p' n) →
      (collection ops res sigs).evalTop (.sigDelay i) p = (collection ops res sigs).evalTop (.sigDelay i) p' := by
    intro i p p' h
    rw [heq, heq]
    simp only [collection, methBody, Prog.eval]
    cases hi : sigs[i]? with
    | none => rfl
    | some s => exact (hs s (List.mem_of_getElem? hi)).2.2.1 p p' (h s hi)
  have sD' : ∀ (i : Nat) p p', (∀ n ∈ methNames sigs (.sigDelay i), Dict.get? p n = Dict.get? p' n) →
      (collection ops res sigs).evalTop (.sigDelay i) p = (collection ops res sigs).evalTop (.sigDelay i) p' := by
    intro i p p' h
    rw [heq, heq]
    simp only [collection, methBody, Prog.eval]
    cases hi : sigs[i]? with
    | none => rfl
    | some s =>
      simp only [methNames, hi, Option.map_some, Option.getD_some] at h
      exact (hs s (List.mem_of_getElem? hi)).2.1 p p' h
  have sB : ∀ (i : Nat) p p', (∀ n ∈ methNames sigs (.sigBasis i), Dict.get? p n = Dict.get? p' n) →
      (collection ops res sigs).evalTop (.sigBasis i) p = (collection ops res sigs).evalTop (.sigBasis i) p' := by
    intro i p p' h
    rw [heq, heq]
    simp only [collection, methBody, Prog.eval]
    cases hi : sigs[i]? with
    | none => rfl
    | some s =>
      simp only [methNames, hi, Option.map_some, Option.getD_some] at h
      exact (hs s (List.mem_of_getElem? hi)).2.2.2 p p' h
  -- pulsar level
  have cN : ∀ p p', (∀ n ∈ whiteNames sigs, Dict.get? p n = Dict.get? p' n) →
      (collection ops res sigs).evalTop .ndiag p = (collection ops res sigs).evalTop .ndiag p' := by
    intro p p' h
    rw [heq, heq]
    show Prog.eval _ (Prog.callAll _ p _) = Prog.eval _ (Prog.callAll _ p' _)
    apply eval_callAll_congr
    intro c hc
    obtain ⟨i, hi, rfl⟩ := List.mem_map.1 hc
    apply sN
    intro n hn
    apply h
    simp only [List.mem_range] at hi
    simp only [methNames, List.getElem?_eq_getElem hi, Option.map_some, Option.getD_some] at hn
    exact List.mem_flatMap.2 ⟨_, List.getElem_mem hi, hn⟩
  have cD : ∀ p p', (∀ n ∈ delayNames sigs, Dict.get? p n = Dict.get? p' n) →
      (collection ops res sigs).evalTop .delay p = (collection ops res sigs).evalTop .delay p' := by
    intro p p' h
    rw [heq, heq]
    show Prog.eval _ (Prog.callAll _ p _) = Prog.eval _ (Prog.callAll _ p' _)
    apply eval_callAll_congr
    intro c hc
    obtain ⟨i, hi, rfl⟩ := List.mem_map.1 hc
    apply sD
    intro s hsi n hn
    exact h n (List.mem_flatMap.2 ⟨_, List.mem_of_getElem? hsi, hn⟩)
  have cB : ∀ p p', (∀ n ∈ basisNames sigs, Dict.get? p n = Dict.get? p' n) →
      (collection ops res sigs).evalTop .basis p = (collection ops res sigs).evalTop .basis p' := by
    intro p p' h
    rw [heq, heq]
    show Prog.eval _ (Prog.callAll _ p _) = Prog.eval _ (Prog.callAll _ p' _)
    apply eval_callAll_congr
    intro c hc
    obtain ⟨i, hi, rfl⟩ := List.mem_map.1 hc
    apply sB
    intro n hn
    apply h
    simp only [List.mem_range] at hi
    simp only [methNames, List.getElem?_eq_getElem hi, Option.map_some, Option.getD_some] at hn
    exact List.mem_flatMap.2 ⟨_, List.getElem_mem hi, hn⟩
  have cR : ∀ p p', (∀ n ∈ delayNames sigs, Dict.get? p n = Dict.get? p' n) →
      (collection ops res sigs).evalTop .detres p = (collection ops res sigs).evalTop .detres p' := by
    intro p p' h
    rw [heq, heq]
    simp only [collection, methBody, Prog.eval]
    have := cD p p' h
    simp only [collection] at this
    rw [this]
  cases m with
  | sigNdiag i => exact sN i p p' h
  | sigDelay i => exact sD' i p p' h
  | sigBasis i => exact sB i p p' h
  | ndiag => exact cN p p' h
  | delay => exact cD p p' h
  | basis => exact cB p p' h
  | detres => exact cR p p' h
  | TNr =>
    have e1 := cB p p' fun n hn => h n (by simp [methNames, hn])
    have e2 := cN p p' fun n hn => h n (by simp [methNames, hn])
    have e3 := cR p p' fun n hn => h n (by simp [methNames, hn])
    rw [heq, heq]
    simp only [collection, methBody, Prog.eval] at e1 e2 e3 ⊢
    rw [e1]
    split
    · split
      · rfl
      · simp only [Prog.eval]; rw [e2]; split
        · rw [e3]
        · rfl
    · rfl
  | TNT =>
    have e1 := cB p p' fun n hn => h n (by simp [methNames, hn])
    have e2 := cN p p' fun n hn => h n (by simp [methNames, hn])
    rw [heq, heq]
    simp only [collection, methBody, Prog.eval] at e1 e2 ⊢
    rw [e1]
    split
    · split
      · rfl
      · simp only [Prog.eval]; rw [e2]
    · rfl
  | rNr =>
    have e2 := cN p p' fun n hn => h n (by simp [methNames, hn])
    have e3 := cR p p' fun n hn => h n (by simp [methNames, hn])
    rw [heq, heq]
    simp only [collection, methBody, Prog.eval] at e2 e3 ⊢
    rw [e2]
    split
    · rw [e3]
    · rfl

theorem collection_ok (ops : CollOps V) (res : V) (sigs : List (Sig K V)) (hs : ∀ s ∈ sigs, SigOk s) :
    (collection ops res sigs).Ok where
  below := collection_below ops res sigs
  limit := by intro c; cases c <;> simp [collection, methLimit]
  det := by
    intro c p p' h
    exact collection_det ops res sigs hs c p p' (cacheKey_inj _ p p' h)

/-- C33 (partial): for signals whose methods depend only on the parameters under which they are
cached — including, for the delay, only those the collection lists — every sequence of calls of
any pulsar-level (or signal-level) method with any parameters returns call by call what an
uncached evaluation returns, exceptions included.  Missing: signals with stale or shared arrays
(C29, C30) and GPs with explicit coefficients and varying basis (`C33_coefficients_false`). -/
theorem C33_history_independent_partial (ops : CollOps V) (res : V) (sigs : List (Sig K V))
    (hs : ∀ s ∈ sigs, SigOk s) (hist : List (Meth × Params K)) :
    ((collection ops res sigs).runHist hist Family.fresh).2 =
      hist.map fun mp => (collection ops res sigs).evalTop mp.1 mp.2 :=
  ((collection ops res sigs).runHist_spec (collection_ok ops res sigs hs) hist _
    fun _ => good_empty _).1

/-- C33 (partial), in terms of a freshly built collection: after any history the next call gives
what the same call gives as the very first call on a fresh collection. -/
theorem C33_fresh_partial (ops : CollOps V) (res : V) (sigs : List (Sig K V))
    (hs : ∀ s ∈ sigs, SigOk s) (hist : List (Meth × Params K)) (m : Meth) (p : Params K) :
    ((collection ops res sigs).callTop m p ((collection ops res sigs).runHist hist Family.fresh).1).2 =
      ((collection ops res sigs).callTop m p Family.fresh).2 := by
  have hok := collection_ok ops res sigs hs
  have hg := ((collection ops res sigs).runHist_spec hok hist Family.fresh fun _ => good_empty _).2
  rw [((collection ops res sigs).callTop_spec hok m p _ hg).1,
    ((collection ops res sigs).callTop_spec hok m p Family.fresh fun _ => good_empty _).1]

/-- The uncached meanings are what the formulas say: with noise matrix `N`, delay `d` and basis
`T`, the residuals used everywhere are `residuals - d`, and the three products are the solves of
`N` with (basis, residuals), (basis, basis), (residuals, residuals); without a basis the first
two are `None`. -/
theorem C33_meaning (ops : CollOps V) (res : V) (sigs : List (Sig K V)) (p : Params K)
    (N d T : V) (hN : (collection ops res sigs).evalTop .ndiag p = .ok N)
    (hd : (collection ops res sigs).evalTop .delay p = .ok d)
    (hT : (collection ops res sigs).evalTop .basis p = .ok T) :
    (collection ops res sigs).evalTop .detres p = .ok (ops.sub res d) ∧
    (collection ops res sigs).evalTop .rNr p = ops.solveRNr N (ops.sub res d) ∧
    (collection ops res sigs).evalTop .TNr p =
      (if ops.isNone T then .ok ops.none else ops.solveTNr N (ops.sub res d) T) ∧
    (collection ops res sigs).evalTop .TNT p =
      (if ops.isNone T then .ok ops.none else ops.solveTNT N T) := by
  have heq := evalTop_eq (collection ops res sigs) (collection_below ops res sigs)
  have hr : (collection ops res sigs).evalTop .detres p = .ok (ops.sub res d) := by
    rw [heq]
    simp only [collection, methBody, Prog.eval] at hd ⊢
    rw [hd]
  refine ⟨hr, ?_, ?_, ?_⟩
  · rw [heq]
    simp only [collection, methBody, Prog.eval] at hN hr ⊢
    rw [hN]; simp only [hr]
  · rw [heq]
    simp only [collection, methBody, Prog.eval] at hN hr hT ⊢
    rw [hT]
    dsimp only
    split
    · rfl
    · simp only [Prog.eval, hN, hr]
  · rw [heq]
    simp only [collection, methBody, Prog.eval] at hN hT ⊢
    rw [hT]
    dsimp only
    split
    · rfl
    · simp only [Prog.eval, hN]

/-- The pulsar-level noise is the sum over all signals, in order, of what each signal gives for
these parameters; likewise the delay and the assembled basis. -/
theorem C33_sums (ops : CollOps V) (res : V) (sigs : List (Sig K V)) (p : Params K)
    (ns ds bs : List V)
    (hn : sigs.map (fun s => s.ndiag p) = ns.map .ok) (hd : sigs.map (fun s => s.delay p) = ds.map .ok)
    (hb : sigs.map (fun s => s.basis p) = bs.map .ok) :
    (collection ops res sigs).evalTop .ndiag p = .ok (ops.sumNdiag ns) ∧
    (collection ops res sigs).evalTop .delay p = .ok (ops.sumDelay ds) ∧
    (collection ops res sigs).evalTop .basis p = ops.assemble bs := by
  have heq := evalTop_eq (collection ops res sigs) (collection_below ops res sigs)
  have key : ∀ (h : Meth → Params K → Except PyErr V) (cs : List Meth) (vs : List V)
      (k : List V → Prog Meth (Params K) V), cs.map (fun c => h c p) = vs.map .ok →
      (Prog.callAll cs p k).eval h = (k vs).eval h := by
    intro h cs
    induction cs with
    | nil => intro vs k hv; cases vs with
      | nil => rfl
      | cons a t => simp at hv
    | cons c t ih =>
      intro vs k hv
      cases vs with
      | nil => simp at hv
      | cons v vt =>
        simp only [List.map_cons, List.cons.injEq] at hv
        simp only [Prog.callAll, Prog.eval, hv.1]
        exact ih vt _ hv.2
  have sig : ∀ (mk : Nat → Meth) (get : Sig K V → Params K → Except PyErr V) (vs : List V),
      (∀ i s, sigs[i]? = some s → (collection ops res sigs).evalTop (mk i) p = get s p) →
      sigs.map (fun s => get s p) = vs.map .ok →
      ((List.range sigs.length).map mk).map (fun c => (collection ops res sigs).evalTop c p) = vs.map .ok := by
    intro mk get vs h1 h2
    rw [← h2]
    apply List.ext_getElem
    · simp
    · intro i hi1 hi2
      simp only [List.getElem_map, List.getElem_range]
      exact h1 i _ (List.getElem?_eq_getElem (by simpa using hi2))
  refine ⟨?_, ?_, ?_⟩
  · rw [heq]
    show Prog.eval _ (Prog.callAll _ p _) = _
    rw [key _ _ ns _ (sig .sigNdiag (·.ndiag) ns ?_ hn)]
    · rfl
    · intro i s hs; rw [heq]; simp [collection, methBody, Prog.eval, hs]
  · rw [heq]
    show Prog.eval _ (Prog.callAll _ p _) = _
    rw [key _ _ ds _ (sig .sigDelay (·.delay) ds ?_ hd)]
    · rfl
    · intro i s hs; rw [heq]; simp [collection, methBody, Prog.eval, hs]
  · rw [heq]
    show Prog.eval _ (Prog.callAll _ p _) = _
    rw [key _ _ bs _ (sig .sigBasis (·.basis) bs ?_ hb)]
    · rfl
    · intro i s hs; rw [heq]; simp [collection, methBody, Prog.eval, hs]

/-- Integer-valued toy operations used in the examples. -/
def toyOps : CollOps Int where
  sumNdiag := List.sum
  sumDelay := List.sum
  sub := (· - ·)
  assemble := fun vs => .ok vs.sum
  isNone := fun _ => false
  none := 0
  solveTNr := fun N r T => .ok (N + r + T)
  solveTNT := fun N T => .ok (N + T)
  solveRNr := fun N r => .ok (N + r)

/-- Read an integer parameter. -/
def geti (p : Params Int) (n : String) : Except PyErr Int :=
  match Dict.get? p n with
  | some (.scalar x) => .ok x
  | some (.vector xs) => .ok xs.sum
  | none => .error .keyError

theorem dependsOnly_geti (n : String) : DependsOnly [n] fun p => geti p n := by
  intro p p' h; simp only [geti]; rw [h n (by simp)]

/-- A white-noise signal with parameter `w` and a deterministic signal with parameter `d`. -/
def toySigs : List (Sig Int Int) :=
  [{ ndiag := fun p => geti p "w", delay := fun _ => .ok 0, basis := fun _ => .ok 0,
     ndiagNames := ["w"], delayNames := [], collDelayNames := [], basisNames := [] },
   { ndiag := fun _ => .ok 0, delay := fun p => geti p "d", basis := fun _ => .ok 0,
     ndiagNames := [], delayNames := ["d"], collDelayNames := ["d"], basisNames := [] }]

example : ∀ s ∈ toySigs, SigOk s := by
  intro s hs
  simp only [toySigs, List.mem_cons, List.not_mem_nil, or_false] at hs
  rcases hs with rfl | rfl
  · exact ⟨dependsOnly_geti "w", fun _ _ _ => rfl, fun _ _ _ => rfl, fun _ _ _ => rfl⟩
  · exact ⟨fun _ _ _ => rfl, dependsOnly_geti "d", dependsOnly_geti "d", fun _ _ _ => rfl⟩

example : ((collection toyOps 100 toySigs).runHist
    [(.rNr, [("w", .scalar 1), ("d", .scalar 2)]), (.rNr, [("w", .scalar 5), ("d", .scalar 2)]),
     (.detres, [("w", .scalar 5)]), (.rNr, [("w", .scalar 1), ("d", .scalar 7)])] Family.fresh).2 =
    [.ok 99, .ok 103, .error .keyError, .ok 94] := by decide +kernel

/-- A Gaussian process with explicit coefficients `c` on a basis with varying parameter `b`: its
own cache of the delay is keyed by both, but the collection's `delay_params` only lists the
coefficients (gp_signals.py 137-141 against signal_base.py 808). -/
def coeffSig : Sig Int Int where
  ndiag := fun _ => .ok 0
  delay := fun p => do return (← geti p "b") * (← geti p "c")
  basis := fun _ => .ok 0
  ndiagNames := []
  delayNames := ["b", "c"]
  collDelayNames := ["c"]
  basisNames := ["b"]

/-- C33 is false for such a model: changing the basis parameter only, the pulsar-level delay stays
at its old value, while a fresh collection returns the new one. -/
theorem C33_coefficients_false :
    DependsOnly coeffSig.delayNames coeffSig.delay ∧
    ((collection toyOps 0 [coeffSig]).runHist
      [(.delay, [("b", .scalar 1), ("c", .scalar 3)]), (.delay, [("b", .scalar 2), ("c", .scalar 3)])]
        Family.fresh).2 = [.ok 3, .ok 3] ∧
    ((collection toyOps 0 [coeffSig]).callTop .delay [("b", .scalar 2), ("c", .scalar 3)]
      Family.fresh).2 = .ok 6 := by
  refine ⟨?_, by decide +kernel, by decide +kernel⟩
  intro p p' h
  simp only [coeffSig, geti]
  rw [h "b" (by simp [coeffSig]), h "c" (by simp [coeffSig])]

end Verif.Cache
