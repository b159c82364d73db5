import Verif.Props.Cache
import Mathlib.Data.Finset.Card
import Mathlib.Data.List.Nodup

/-!
Constants and caches (C29): how long old constants can last.
-/

namespace Verif.Cache

open Verif

variable {κ V τ : Type} [DecidableEq κ]

theorem callC_eq (limit : Nat) (k : κ) (f : τ → V) (s : CState κ V) (c : τ) :
    callC limit k f (s, c) = (((call1 limit k (.ok (f c)) s).1, c), (call1 limit k (.ok (f c)) s).2) := by
  unfold callC call1 wrap
  simp only [id]
  cases Dict.get? s.cache k <;> rfl

/-- A call whose key is cached. -/
theorem call_hit {limit : Nat} {s : CState κ V} (h : Clean limit s) (k : κ) (v : V) (hk : k ∈ s.list) :
    ∃ w, Dict.get? s.cache k = some w ∧ call1 limit k (.ok v) s = (s, .ok w) := by
  cases hg : Dict.get? s.cache k with
  | none => exact absurd (h.keys ▸ hk) ((Dict.get?_eq_none_iff _ _).1 hg)
  | some w => exact ⟨w, rfl, by simp [call1, wrap, hg]⟩

/-- A call whose key is not: the key goes to the end of the list, the first key leaves when there are too many. -/
theorem call_miss {limit : Nat} (hl : 1 ≤ limit) {s : CState κ V} (h : Clean limit s) (k : κ) (v : V) (hk : k ∉ s.list) :
    (call1 limit k (.ok v) s).2 = .ok v ∧ Dict.get? (call1 limit k (.ok v) s).1.cache k = some v ∧
    (call1 limit k (.ok v) s).1.list = (if limit < s.list.length + 1 then s.list.tail else s.list) ++ [k] ∧
    ∀ k' ∈ (call1 limit k (.ok v) s).1.list, k' ≠ k → Dict.get? (call1 limit k (.ok v) s).1.cache k' = Dict.get? s.cache k' := by
  have hg : Dict.get? s.cache k = none := (Dict.get?_eq_none_iff _ _).2 (h.keys ▸ hk)
  have hr := (clean_call hl h k v).2.2 hk
  refine ⟨hr, ?_⟩
  unfold call1 wrap
  simp only [id, hg, evict, List.length_append, List.length_singleton]
  by_cases hlt : limit < s.list.length + 1
  · simp only [if_pos hlt]
    cases hlist : s.list with
    | nil => rw [hlist] at hlt; simp at hlt; omega
    | cons k0 t =>
      have hne : k0 ≠ k := fun e => hk (by rw [hlist, e]; simp)
      have hnd : (k0 :: t).Nodup := hlist ▸ h.nodup
      refine ⟨?_, by simp, ?_⟩
      · simp only [List.cons_append]
        rw [Dict.get?_erase, if_neg (by simpa using Ne.symm hne), Dict.get?_set_self]
      · intro k' hk' hkk
        simp only [List.cons_append] at hk' ⊢
        have h0 : k0 ≠ k' := by
          rintro rfl
          rcases List.mem_append.1 hk' with h' | h'
          · exact (List.nodup_cons.1 hnd).1 h'
          · exact hkk (by simpa using h')
        rw [Dict.get?_erase, if_neg (by simpa using Ne.symm h0), Dict.get?_set_ne _ _ (fun e => hkk e.symm)]
  · simp only [if_neg hlt]
    exact ⟨Dict.get?_set_self _ _ _, trivial, fun k' _ hkk => Dict.get?_set_ne _ _ (fun e => hkk e.symm)⟩

/-! ## Vocabulary -/

/-- The keys of the calls of a history. -/
def called : List (Op κ τ) → List κ
  | [] => []
  | .set _ :: t => called t
  | .call k :: t => k :: called t

/-- The constants in force after a history that started with `c`. -/
def inForce (c : τ) : List (Op κ τ) → τ
  | [] => c
  | .set c' :: t => inForce c' t
  | .call _ :: t => inForce c t

/-- The result of a call of `k` after a history on a new object with constants `c`. -/
def resultAfter (limit : Nat) (f : κ → τ → V) (c : τ) (h : List (Op κ τ)) (k : κ) : Except PyErr V :=
  (callC limit k (f k) (runOps limit f h (CState.empty, c)).1).2

/-! ## Lemmas -/

theorem runOps_append (limit : Nat) (f : κ → τ → V) (a b : List (Op κ τ)) (s : CState κ V × τ) :
    (runOps limit f (a ++ b) s).1 = (runOps limit f b (runOps limit f a s).1).1 := by
  induction a generalizing s with
  | nil => rfl
  | cons x t ih =>
    cases x with
    | set c => exact ih _
    | call k => exact ih _

theorem runOps_const (limit : Nat) (f : κ → τ → V) (h : List (Op κ τ)) (s : CState κ V × τ) :
    (runOps limit f h s).1.2 = inForce s.2 h := by
  induction h generalizing s with
  | nil => rfl
  | cons x t ih =>
    cases x with
    | set c => exact ih _
    | call k =>
      have e : (callC limit k (f k) s).1.2 = s.2 := by obtain ⟨a, b⟩ := s; rw [callC_eq]
      have := ih (callC limit k (f k) s).1
      rw [e] at this
      exact this

/-- Every cached value was computed for its key with constants then in force. -/
theorem runOps_former {limit : Nat} (hl : 1 ≤ limit) (f : κ → τ → V) (c0 : τ) (h0 h : List (Op κ τ)) (s : CState κ V)
    (hs : Clean limit s) (hold : ∀ k ∈ s.list, ∃ a b, h0 = a ++ .call k :: b ∧ Dict.get? s.cache k = some (f k (inForce c0 a))) :
    Clean limit (runOps limit f h (s, inForce c0 h0)).1.1 ∧
      ∀ k ∈ (runOps limit f h (s, inForce c0 h0)).1.1.list, ∃ a b, h0 ++ h = a ++ .call k :: b ∧
        Dict.get? (runOps limit f h (s, inForce c0 h0)).1.1.cache k = some (f k (inForce c0 a)) := by
  induction h generalizing h0 s with
  | nil => exact ⟨hs, fun k hk => by rw [List.append_nil]; exact hold k hk⟩
  | cons x t ih =>
    have hap : ∀ (a b : List (Op κ τ)) (c : τ), inForce c (a ++ b) = inForce (inForce c a) b := by
      intro a
      induction a with
      | nil => intros; rfl
      | cons y t ih => intro b c; cases y <;> exact ih b _
    cases x with
    | set c =>
      have := ih (h0 ++ [.set c]) s hs (fun k hk => by
        obtain ⟨a, b, e, hv⟩ := hold k hk
        exact ⟨a, b ++ [.set c], by rw [e]; simp, hv⟩)
      rw [hap, List.append_assoc] at this
      exact this
    | call k =>
      have e : runOps limit f (.call k :: t) (s, inForce c0 h0) =
          ((runOps limit f t ((call1 limit k (.ok (f k (inForce c0 h0))) s).1, inForce c0 h0)).1,
            (call1 limit k (.ok (f k (inForce c0 h0))) s).2 ::
              (runOps limit f t ((call1 limit k (.ok (f k (inForce c0 h0))) s).1, inForce c0 h0)).2) := by
        rw [runOps, callC_eq]
      rw [e]
      have hcl := (clean_call hl hs k (f k (inForce c0 h0))).1
      have := ih (h0 ++ [.call k]) (call1 limit k (.ok (f k (inForce c0 h0))) s).1 hcl (fun k' hk' => by
        by_cases hk : k ∈ s.list
        · obtain ⟨w, hw, e'⟩ := call_hit hs k (f k (inForce c0 h0)) hk
          rw [e'] at hk' ⊢
          obtain ⟨a, b, e, hv⟩ := hold k' hk'
          exact ⟨a, b ++ [.call k], by rw [e]; simp, hv⟩
        · obtain ⟨-, h2, h3, h4⟩ := call_miss hl hs k (f k (inForce c0 h0)) hk
          by_cases hkk : k' = k
          · subst hkk
            exact ⟨h0, [], rfl, h2⟩
          · rw [h4 k' hk' hkk]
            rw [h3] at hk'
            have hmem : k' ∈ s.list := by
              rcases List.mem_append.1 hk' with h' | h'
              · split at h'
                · exact List.mem_of_mem_tail h'
                · exact h'
              · exact absurd (by simpa using h') hkk
            obtain ⟨a, b, e, hv⟩ := hold k' hmem
            exact ⟨a, b ++ [.call k], by rw [e]; simp, hv⟩)
      rw [hap, List.append_assoc] at this
      exact this

theorem runOps_called {limit : Nat} (hl : 1 ≤ limit) (f : κ → τ → V) (c0 : τ) (h : List (Op κ τ)) :
    Clean limit (runOps limit f h ((CState.empty : CState κ V), c0)).1.1 ∧
      ∀ k ∈ (runOps limit f h ((CState.empty : CState κ V), c0)).1.1.list, ∃ a b, h = a ++ .call k :: b ∧
        Dict.get? (runOps limit f h ((CState.empty : CState κ V), c0)).1.1.cache k = some (f k (inForce c0 a)) :=
  runOps_former hl f c0 [] h CState.empty (clean_empty limit) fun k hk => absurd hk (by simp [CState.empty])

omit [DecidableEq κ] in
theorem called_append (a b : List (Op κ τ)) : called (a ++ b) = called a ++ called b := by
  induction a with
  | nil => rfl
  | cons x t ih => cases x <;> simp [called, ih]

/-- Calls with constants `c`: the keys cached before leave first. -/
theorem settle {limit : Nat} (hl : 1 ≤ limit) (f : κ → τ → V) (c : τ) (l : List κ) : ∀ (s : CState κ V) (o n : List κ),
    Clean limit s → s.list = o ++ n → (∀ k ∈ n, Dict.get? s.cache k = some (f k c)) →
    ∃ o' n', Clean limit (runOps limit f (l.map .call) (s, c)).1.1 ∧ (runOps limit f (l.map .call) (s, c)).1.1.list = o' ++ n' ∧ o' <:+ o ∧
      (∀ k ∈ n', Dict.get? (runOps limit f (l.map .call) (s, c)).1.1.cache k = some (f k c)) ∧
      (o' ≠ [] → ∀ k ∈ n ++ l, k ∈ n' ∨ k ∈ o) := by
  induction l with
  | nil => exact fun s o n hs e hn => ⟨o, n, hs, e, List.suffix_refl _, hn, fun _ k hk => .inl (by simpa using hk)⟩
  | cons k t ih =>
    intro s o n hs e hn
    have er : (runOps limit f ((k :: t).map .call) (s, c)).1 = (runOps limit f (t.map .call) ((call1 limit k (.ok (f k c)) s).1, c)).1 := by
      rw [List.map_cons, runOps, callC_eq]
    rw [er]
    have hcl := (clean_call hl hs k (f k c)).1
    by_cases hk : k ∈ s.list
    · obtain ⟨w, hw, e'⟩ := call_hit hs k (f k c) hk
      rw [e'] at hcl ⊢
      obtain ⟨o', n', h1, h2, h3, h4, h5⟩ := ih s o n hs e hn
      refine ⟨o', n', h1, h2, h3, h4, fun ho k' hk' => ?_⟩
      rcases List.mem_append.1 hk' with h' | h'
      · exact h5 ho k' (List.mem_append_left _ h')
      · rcases List.mem_cons.1 h' with rfl | h'
        · rw [e] at hk
          rcases List.mem_append.1 hk with h' | h'
          · exact .inr h'
          · exact h5 ho k' (List.mem_append_left _ h')
        · exact h5 ho k' (List.mem_append_right _ h')
    · obtain ⟨-, g2, g3, g4⟩ := call_miss hl hs k (f k c) hk
      have hkn : ∀ k' ∈ n, k' ≠ k := by
        rintro k' h' rfl
        exact hk (e ▸ List.mem_append_right _ h')
      by_cases hlt : limit < s.list.length + 1
      · rw [if_pos hlt, e] at g3
        cases o with
        | nil =>
          obtain ⟨o', n', h1, h2, h3, h4, h5⟩ := ih _ [] (n.tail ++ [k]) hcl (by simpa using g3) (fun k' hk' => by
            rcases List.mem_append.1 hk' with h' | h'
            · have hm := List.mem_of_mem_tail h'
              rw [g4 k' (by rw [g3]; simpa using .inl h') (hkn k' hm)]
              exact hn k' hm
            · rw [List.mem_singleton.1 h']; exact g2)
          have ho' : o' = [] := List.suffix_nil.1 h3
          exact ⟨o', n', h1, h2, h3, h4, fun ho => absurd ho' ho⟩
        | cons x o =>
          obtain ⟨o', n', h1, h2, h3, h4, h5⟩ := ih _ o (n ++ [k]) hcl (by simpa using g3) (fun k' hk' => by
            rcases List.mem_append.1 hk' with h' | h'
            · rw [g4 k' (by rw [g3]; simp [h']) (hkn k' h')]
              exact hn k' h'
            · rw [List.mem_singleton.1 h']; exact g2)
          refine ⟨o', n', h1, h2, h3.trans (List.suffix_cons _ _), h4, fun ho k' hk' => ?_⟩
          rcases h5 ho k' (by simpa using hk') with h' | h'
          · exact .inl h'
          · exact .inr (List.mem_cons_of_mem _ h')
      · rw [if_neg hlt, e] at g3
        obtain ⟨o', n', h1, h2, h3, h4, h5⟩ := ih _ o (n ++ [k]) hcl (by simpa using g3) (fun k' hk' => by
          rcases List.mem_append.1 hk' with h' | h'
          · rw [g4 k' (by rw [g3]; simp [h']) (hkn k' h')]
            exact hn k' h'
          · rw [List.mem_singleton.1 h']; exact g2)
        refine ⟨o', n', h1, h2, h3, h4, fun ho k' hk' => h5 ho k' (by simpa using hk')⟩

/-! ## C29 -/

/-- C29: a call always returns what the method returns for its parameters and constants that were in force at this call or at an
earlier call with the same parameters. -/
theorem C29_former_partial {limit : Nat} (hl : 1 ≤ limit) (f : κ → τ → V) (c : τ) (h : List (Op κ τ)) (k : κ) :
    ∃ a b, h ++ [.call k] = a ++ .call k :: b ∧ resultAfter limit f c h k = .ok (f k (inForce c a)) := by
  obtain ⟨hcl, hold⟩ := runOps_called (V := V) hl f c h
  have hc := runOps_const limit f h ((CState.empty : CState κ V), c)
  unfold resultAfter
  rw [show (runOps limit f h ((CState.empty : CState κ V), c)).1 = ((runOps limit f h ((CState.empty : CState κ V), c)).1.1, inForce c h) from
    Prod.ext rfl hc, callC_eq]
  by_cases hk : k ∈ (runOps limit f h ((CState.empty : CState κ V), c)).1.1.list
  · obtain ⟨a, b, e, hv⟩ := hold k hk
    obtain ⟨w, hw, e'⟩ := call_hit hcl k (f k (inForce c h)) hk
    refine ⟨a, b ++ [.call k], by rw [e]; simp, ?_⟩
    rw [e', ← Option.some_inj.1 (hw.symm.trans hv)]
  · exact ⟨h, [], rfl, (call_miss hl hcl k _ hk).1⟩

/-- C29: a change of the constants takes effect, at the latest, once the method has been called with as many parameter values that
had not been used before the change as the cache holds: from then on every call uses the new constants. -/
theorem C29_settles_partial {limit : Nat} (hl : 1 ≤ limit) (f : κ → τ → V) (c0 c : τ) (h : List (Op κ τ)) (l : List κ)
    (hfresh : limit ≤ (l.toFinset \ (called h).toFinset).card) (k : κ) :
    resultAfter limit f c0 (h ++ .set c :: l.map .call) k = .ok (f k c) := by
  obtain ⟨hcl, hold⟩ := runOps_called (V := V) hl f c0 h
  obtain ⟨o', n', h1, h2, h3, h4, h5⟩ := settle hl f c l _ _ [] hcl (List.append_nil _).symm (fun k hk => absurd hk (by simp))
  have ho : o' = [] := by
    by_contra ho
    have hsub : l.toFinset \ (called h).toFinset ⊆ n'.toFinset := by
      intro x hx
      rw [Finset.mem_sdiff, List.mem_toFinset, List.mem_toFinset] at hx
      rw [List.mem_toFinset]
      rcases h5 ho x (by simpa using hx.1) with h' | h'
      · exact h'
      · obtain ⟨a, b, e, -⟩ := hold x h'
        exact absurd (by rw [e, called_append]; simp [called]) hx.2
    have hcard := (Finset.card_le_card hsub).trans (List.toFinset_card_le _)
    have hb := h1.bound
    rw [h2, List.length_append] at hb
    have : 0 < o'.length := List.length_pos_iff.2 ho
    omega
  subst ho
  rw [List.nil_append] at h2
  unfold resultAfter
  have er : (runOps limit f (h ++ .set c :: l.map .call) ((CState.empty : CState κ V), c0)).1 =
      (runOps limit f (l.map .call) ((runOps limit f h ((CState.empty : CState κ V), c0)).1.1, c)).1 := by
    rw [runOps_append]
    rfl
  rw [er]
  have hc := runOps_const limit f (l.map .call) ((runOps limit f h ((CState.empty : CState κ V), c0)).1.1, c)
  have hc' : inForce c (l.map (Op.call (τ := τ))) = c := by
    clear h1 h2 h4 h5 hfresh hc er h3
    induction l with
    | nil => rfl
    | cons x t ih => exact ih
  have hc : (runOps limit f (l.map .call) ((runOps limit f h ((CState.empty : CState κ V), c0)).1.1, c)).1.2 = c := hc.trans hc'
  generalize runOps limit f (l.map .call) ((runOps limit f h ((CState.empty : CState κ V), c0)).1.1, c) = r at *
  obtain ⟨⟨s, c1⟩, rs⟩ := r
  have hc : c1 = c := hc
  subst hc
  show (callC limit k (f k) (s, c1)).2 = _
  rw [callC_eq]
  by_cases hk : k ∈ s.list
  · obtain ⟨w, hw, e'⟩ := call_hit h1 k (f k c1) hk
    have := h4 k (h2 ▸ hk)
    rw [e', Option.some_inj.1 (hw.symm.trans this)]
  · exact (call_miss hl h1 k _ hk).1

/-- Calls with new keys for which there is room keep what is cached. -/
theorem keep {limit : Nat} (hl : 1 ≤ limit) (f : κ → τ → V) (c : τ) (l : List κ) : ∀ (s : CState κ V), Clean limit s →
    (s.list ++ l).Nodup → s.list.length + l.length ≤ limit →
    Clean limit (runOps limit f (l.map .call) (s, c)).1.1 ∧ (runOps limit f (l.map .call) (s, c)).1.1.list = s.list ++ l ∧
      ∀ k ∈ s.list, Dict.get? (runOps limit f (l.map .call) (s, c)).1.1.cache k = Dict.get? s.cache k := by
  induction l with
  | nil => exact fun s hs _ _ => ⟨hs, (List.append_nil _).symm, fun _ _ => rfl⟩
  | cons x t ih =>
    intro s hs hn hb
    have er : (runOps limit f ((x :: t).map .call) (s, c)).1 = (runOps limit f (t.map .call) ((call1 limit x (.ok (f x c)) s).1, c)).1 := by
      rw [List.map_cons, runOps, callC_eq]
    rw [er]
    have hx : x ∉ s.list := fun h => (List.nodup_append.1 hn).2.2 x h x (by simp) rfl
    have hcl := (clean_call hl hs x (f x c)).1
    obtain ⟨-, g2, g3, g4⟩ := call_miss hl hs x (f x c) hx
    rw [List.length_cons] at hb
    rw [if_neg (by omega)] at g3
    obtain ⟨h1, h2, h3⟩ := ih _ hcl (by rw [g3]; simpa using hn) (by rw [g3]; simp; omega)
    refine ⟨h1, by rw [h2, g3]; simp, fun k hk => ?_⟩
    rw [h3 k (by rw [g3]; simp [hk]), g4 k (by rw [g3]; simp [hk]) (fun e => hx (e ▸ hk))]

/-- C29: with fewer new parameter values than the cache holds the old constants are still used for parameters that were evaluated
just before the change. -/
theorem C29_stale_false {limit : Nat} (f : κ → τ → V) (c0 c : τ) (k : κ) (l : List κ) (hn : (k :: l).Nodup)
    (hfew : l.length < limit) : resultAfter limit f c0 (.call k :: .set c :: l.map .call) k = .ok (f k c0) := by
  have hl : 1 ≤ limit := by omega
  have hcl := (clean_call hl (clean_empty (κ := κ) (V := V) limit) k (f k c0)).1
  obtain ⟨-, g2, g3, -⟩ := call_miss hl (clean_empty (κ := κ) (V := V) limit) k (f k c0) (by simp [CState.empty])
  have g3 : (call1 limit k (.ok (f k c0)) (CState.empty : CState κ V)).1.list = [k] := by
    rw [g3]
    simp [CState.empty]
  obtain ⟨h1, h2, h3⟩ := keep hl f c l _ hcl (by rw [g3]; exact hn) (by rw [g3]; simp; omega)
  unfold resultAfter
  have er : (runOps limit f (.call k :: .set c :: l.map .call) ((CState.empty : CState κ V), c0)).1 =
      (runOps limit f (l.map .call) ((call1 limit k (.ok (f k c0)) (CState.empty : CState κ V)).1, c)).1 := by
    rw [runOps, callC_eq, runOps]
  rw [er]
  have hv := h3 k (by rw [g3]; simp)
  generalize runOps limit f (l.map .call) ((call1 limit k (.ok (f k c0)) (CState.empty : CState κ V)).1, c) = r at *
  obtain ⟨⟨s, c1⟩, rs⟩ := r
  show (callC limit k (f k) (s, c1)).2 = _
  rw [callC_eq]
  obtain ⟨w, hw, e'⟩ := call_hit h1 k (f k c1) (by rw [h2, g3]; simp)
  rw [e']
  exact congrArg Except.ok (Option.some_inj.1 (hw.symm.trans (hv.trans g2)))

/-- A cache of two values, constants 10 then 20: after the calls 1 and 2, both made for the first time, every call uses 20 … -/
example (k : Nat) : resultAfter 2 (fun (k c : Nat) => k + c) 10 ([.call 0, .call 3] ++ .set 20 :: [1, 2].map .call) k = .ok (k + 20) :=
  C29_settles_partial (by omega) (fun (k c : Nat) => k + c) 10 20 [.call 0, .call 3] [1, 2] (by decide) k

/-- … after the call 1 alone the value for 0 is still the old one. -/
example : resultAfter 2 (fun (k c : Nat) => k + c) 10 (.call 0 :: .set 20 :: [1].map .call) 0 = .ok 10 :=
  C29_stale_false (fun (k c : Nat) => k + c) 10 20 0 [1] (by decide) (by decide)

/-- Calls that were made before the change do not count, though they are calls after it. -/
example : resultAfter 2 (fun (k c : Nat) => k + c) 10 ([.call 0, .call 1] ++ .set 20 :: [0, 1, 0, 1].map .call) 0 = .ok 10 := rfl

example : ∃ a b, [Op.call 0, .set 20, .call 1] ++ [.call 0] = a ++ Op.call 0 :: b ∧
    resultAfter 2 (fun (k c : Nat) => k + c) 10 [.call 0, .set 20, .call 1] 0 = .ok (0 + inForce 10 a) :=
  C29_former_partial (by omega) (fun (k c : Nat) => k + c) 10 _ 0

end Verif.Cache
