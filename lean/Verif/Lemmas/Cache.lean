import Verif.Model.Cache
import Verif.Lemmas.Dict
import Mathlib.Data.List.Count
import Mathlib.Logic.Function.Basic
import Mathlib.Order.Defs.LinearOrder
import Mathlib.Order.Basic
import Mathlib.Order.Nat

/-! Helper lemmas for the caching decorators. -/

set_option linter.unusedSectionVars false

namespace Verif.Dict

variable {κ α : Type*} [DecidableEq κ]

theorem get?_erase (d : Dict κ α) (k k' : κ) :
    get? (erase d k) k' = if k' = k then none else get? d k' := by
  induction d with
  | nil => simp [erase]
  | cons kv t ih =>
    unfold erase at ih ⊢
    rw [List.filter_cons]
    by_cases h : kv.1 = k
    · simp only [h, ne_eq, not_true_eq_false, decide_false, Bool.false_eq_true, if_false, ih]
      rw [get?_cons]
      by_cases h' : k' = k
      · simp [h']
      · simp [h', h, Ne.symm h']
    · simp only [h, ne_eq, not_false_eq_true, decide_true, if_true]
      rw [get?_cons, get?_cons, ih]
      by_cases h' : k' = k
      · simp [h', h]
      · simp [h']

theorem mem_keys_iff_get? (d : Dict κ α) (k : κ) : k ∈ d.map Prod.fst ↔ (get? d k).isSome := by
  have := get?_eq_none_iff d k
  cases h : get? d k with
  | none => simpa [h] using this.1 h
  | some v => simp; exact ⟨v, mem_of_get?_eq_some h⟩

end Verif.Dict

namespace Verif.Cache

open Verif

variable {κ V σ : Type} [DecidableEq κ]

theorem cacheKey_inj {K : Type} (names : List String) (p p' : Params K)
    (h : cacheKey names p = cacheKey names p') :
    ∀ n ∈ names, Dict.get? p n = Dict.get? p' n := by
  have hmem : ∀ (q : Params K) n v, n ∈ names → ((n, v) ∈ cacheKey names q ↔ Dict.get? q n = some v) := by
    intro q n v hn
    unfold cacheKey
    rw [List.mem_filterMap]
    constructor
    · rintro ⟨m, -, hm⟩
      rw [Option.map_eq_some_iff] at hm
      obtain ⟨w, hw, he⟩ := hm
      cases he; exact hw
    · intro hv; exact ⟨n, hn, by simp [hv]⟩
  intro n hn
  cases hp : Dict.get? p n with
  | some v =>
    have := (hmem p n v hn).2 hp
    rw [h] at this
    exact ((hmem p' n v hn).1 this).symm
  | none =>
    cases hp' : Dict.get? p' n with
    | none => rfl
    | some v =>
      have := (hmem p' n v hn).2 hp'
      rw [← h] at this
      rw [(hmem p n v hn).1 this] at hp; simp at hp

theorem cacheKey_congr {K : Type} (names : List String) (p p' : Params K)
    (h : ∀ n ∈ names, Dict.get? p n = Dict.get? p' n) : cacheKey names p = cacheKey names p' := by
  unfold cacheKey
  apply List.filterMap_congr
  intro n hn
  rw [h n hn]

/-- Invariant of a cache: entries are right (`E k v`: the method returns `v` for key `k`) and
each key for which the method succeeds is listed exactly once when cached and not at all when not. -/
structure Good (E : κ → V → Prop) (c : CState κ V) : Prop where
  right : ∀ k v, Dict.get? c.cache k = some v → E k v
  count : ∀ k v, E k v → c.list.count k = if (Dict.get? c.cache k).isSome then 1 else 0

theorem good_empty (E : κ → V → Prop) : Good E (CState.empty : CState κ V) :=
  ⟨by intro k v h; simp [CState.empty] at h, by intro k v _; simp [CState.empty]⟩

theorem good_append_err {E : κ → V → Prop} {c : CState κ V} (h : Good E c) {k : κ}
    (hk : ∀ v, ¬ E k v) : Good E { c with list := c.list ++ [k] } := by
  refine ⟨h.right, ?_⟩
  intro k' v hE
  have hne : k' ≠ k := fun e => hk v (e ▸ hE)
  simp only [List.count_append]
  rw [h.count k' v hE, List.count_singleton]
  simp [Ne.symm hne]

theorem good_insert {E : κ → V → Prop} {c : CState κ V} (h : Good E c) {k : κ} {v : V}
    (hk : Dict.get? c.cache k = none) (hE : E k v) {limit : Nat} (hl : 1 ≤ limit) :
    Good E (evict limit { cache := Dict.set c.cache k v, list := c.list ++ [k] }) ∧
    Dict.get? (evict limit { cache := Dict.set c.cache k v, list := c.list ++ [k] }).cache k = some v := by
  have hcount : c.list.count k = 0 := by rw [h.count k v hE, hk]; rfl
  have g0 : Good E { cache := Dict.set c.cache k v, list := c.list ++ [k] } := by
    refine ⟨?_, ?_⟩
    · intro k' w hw
      simp only [Dict.get?_set] at hw
      split at hw
      · next e => cases hw; subst e; exact hE
      · exact h.right k' w hw
    · intro k' w hw
      simp only [List.count_append, List.count_singleton, Dict.get?_set]
      by_cases e : k = k'
      · subst e; simp [hcount]
      · simp [e, h.count k' w hw]
  unfold evict
  split
  · next hlt =>
    cases hlist : c.list with
    | nil => simp [hlist] at hlt; omega
    | cons k0 t =>
      simp only [List.cons_append]
      have hne : k0 ≠ k := by
        intro e; subst e; simp [hlist] at hcount
      rw [hlist] at g0
      refine ⟨⟨?_, ?_⟩, ?_⟩
      · intro k' w hw
        rw [Dict.get?_erase] at hw
        split at hw
        · cases hw
        · exact g0.right k' w hw
      · intro k' w hw
        have := g0.count k' w hw
        simp only [List.cons_append, List.count_cons] at this
        rw [Dict.get?_erase]
        by_cases e : k' = k0
        · subst e
          simp only [beq_self_eq_true, if_true, Option.isSome_none, Bool.false_eq_true, if_false] at this ⊢
          split at this <;> omega
        · have : ¬ (k0 == k') = true := by simpa using Ne.symm e
          simp_all
      · rw [Dict.get?_erase, if_neg (Ne.symm hne), Dict.get?_set_self]
  · exact ⟨g0, Dict.get?_set_self _ _ _⟩

/-- Partial invariant that survives exceptions of any kind: entries are right. -/
def Right (E : κ → V → Prop) (c : CState κ V) : Prop := ∀ k v, Dict.get? c.cache k = some v → E k v

theorem right_evict {E : κ → V → Prop} {c : CState κ V} (h : Right E c) (limit : Nat) :
    Right E (evict limit c) := by
  unfold evict
  split
  · split
    · exact h
    · intro k v hv
      rw [Dict.get?_erase] at hv
      split at hv
      · cases hv
      · exact h k v hv
  · exact h

theorem right_set {E : κ → V → Prop} {c : CState κ V} (h : Right E c) {k : κ} {v : V} (hE : E k v)
    (l : List κ) : Right E ⟨Dict.set c.cache k v, l⟩ := by
  intro k' w hw
  simp only [Dict.get?_set] at hw
  split at hw
  · next e => cases hw; subst e; exact hE
  · exact h k' w hw

/-! ### Families -/

variable {C P : Type} [DecidableEq C]

/-- All calls made by a body have rank below `n`. -/
def Prog.Below (rank : C → Nat) (n : Nat) : Prog C P V → Prop
  | .done _ => True
  | .call c _ k => rank c < n ∧ ∀ v, Below rank n (k v)

theorem Prog.below_callAll (rank : C → Nat) (n : Nat) (cs : List C) (p : P)
    (k : List V → Prog C P V) (hc : ∀ c ∈ cs, rank c < n) (hk : ∀ vs, (k vs).Below rank n) :
    (Prog.callAll cs p k).Below rank n := by
  induction cs generalizing k with
  | nil => exact hk []
  | cons c t ih =>
    refine ⟨hc c (by simp), ?_⟩
    intro v
    exact ih _ (fun c' h => hc c' (by simp [h])) fun vs => hk _

theorem Prog.eval_congr (rank : C → Nat) (n : Nat) (h h' : C → P → Except PyErr V)
    (hh : ∀ c p, rank c < n → h c p = h' c p) (b : Prog C P V) (hb : b.Below rank n) :
    b.eval h = b.eval h' := by
  induction b with
  | done r => rfl
  | call c p k ih =>
    unfold Prog.eval
    rw [hh c p hb.1]
    cases h' c p with
    | ok v => exact ih v (hb.2 v)
    | error e => rfl

/-- Conditions on a family of cached methods: calls go strictly downwards, caches hold at least
one entry, and a method's uncached meaning is determined by its key. -/
structure Family.Ok (F : Family C P κ V) : Prop where
  below : ∀ c p, (F.body c p).Below F.rank (F.rank c)
  limit : ∀ c, 1 ≤ F.limit c
  det : ∀ c p p', F.key c p = F.key c p' → F.evalTop c p = F.evalTop c p'

theorem Family.evalN_eq (F : Family C P κ V) (hb : ∀ c p, (F.body c p).Below F.rank (F.rank c))
    (n : Nat) : ∀ c p, F.rank c < n → F.evalN n c p = F.evalTop c p := by
  induction n using Nat.strongRecOn with
  | _ n ih =>
    intro c p hn
    cases n with
    | zero => omega
    | succ n =>
      by_cases h : F.rank c = n
      · rw [← h]; rfl
      · have hlt : F.rank c < n := by omega
        rw [Family.evalTop, Family.evalN, Family.evalN]
        apply Prog.eval_congr F.rank (F.rank c) _ _ _ _ (hb c p)
        intro c' p' hc'
        rw [ih n (by omega) c' p' (by omega), ih (F.rank c) (by omega) c' p' hc']

/-- Entries and bookkeeping of method `c`'s cache are right. -/
def Family.GoodAt (F : Family C P κ V) (s : FState C κ V) (c : C) : Prop :=
  Good (fun k v => ∃ p, F.key c p = k ∧ F.evalTop c p = .ok v) (s c)

theorem Family.run_spec (F : Family C P κ V) (n m : Nat)
    (h : ∀ c p (s : FState C κ V), F.rank c < m → (∀ c', F.rank c' ≤ F.rank c → F.GoodAt s c') →
      (F.callN n c p s).2 = F.evalTop c p ∧
      (∀ c', F.rank c' ≤ F.rank c → F.GoodAt (F.callN n c p s).1 c') ∧
      (∀ c', F.rank c < F.rank c' → (F.callN n c p s).1 c' = s c')) (b : Prog C P V)
    (hb : b.Below F.rank m) (s : FState C κ V) (hs : ∀ c', F.rank c' < m → F.GoodAt s c') :
    (b.run (F.callN n) s).2 = b.eval F.evalTop ∧
      (∀ c', F.rank c' < m → F.GoodAt (b.run (F.callN n) s).1 c') ∧
      (∀ c', m ≤ F.rank c' → (b.run (F.callN n) s).1 c' = s c') := by
  induction b generalizing s with
  | done r => exact ⟨rfl, hs, fun _ _ => rfl⟩
  | call c p k ih =>
    obtain ⟨h1, h2, h3⟩ := h c p s hb.1 fun c' hc' => hs c' (by have := hb.1; omega)
    have hs' : ∀ c', F.rank c' < m → F.GoodAt (F.callN n c p s).1 c' := by
      intro c' hc'
      by_cases hle : F.rank c' ≤ F.rank c
      · exact h2 c' hle
      · have := h3 c' (by omega)
        unfold Family.GoodAt; rw [this]; exact hs c' hc'
    have hframe : ∀ c', m ≤ F.rank c' → (F.callN n c p s).1 c' = s c' := by
      intro c' hc'; exact h3 c' (by have := hb.1; omega)
    unfold Prog.run Prog.eval
    simp only
    rw [h1]
    cases hev : F.evalTop c p with
    | error e => exact ⟨rfl, hs', hframe⟩
    | ok v =>
      obtain ⟨i1, i2, i3⟩ := ih v (hb.2 v) _ hs'
      refine ⟨i1, i2, ?_⟩
      intro c' hc'; rw [i3 c' hc', hframe c' hc']

theorem Family.callN_spec (F : Family C P κ V) (hF : F.Ok) (n : Nat) :
    ∀ c p (s : FState C κ V), F.rank c < n → (∀ c', F.rank c' ≤ F.rank c → F.GoodAt s c') →
      (F.callN n c p s).2 = F.evalTop c p ∧
      (∀ c', F.rank c' ≤ F.rank c → F.GoodAt (F.callN n c p s).1 c') ∧
      (∀ c', F.rank c < F.rank c' → (F.callN n c p s).1 c' = s c') := by
  induction n with
  | zero => intro c p s h; omega
  | succ n ih =>
    intro c p s hn hgood
    have hc := hgood c le_rfl
    unfold Family.callN wrap
    cases hg : Dict.get? (s c).cache (F.key c p) with
    | some v =>
      obtain ⟨p', hp', hv⟩ := hc.right _ _ hg
      refine ⟨?_, hgood, fun _ _ => rfl⟩
      simp only
      rw [← hF.det c p' p hp', hv]
    | none =>
      simp only
      set s1 : FState C κ V := Function.update s c { s c with list := (s c).list ++ [F.key c p] } with hs1
      have hs1good : ∀ c', F.rank c' < F.rank c → F.GoodAt s1 c' := by
        intro c' hc'
        have hne : c' ≠ c := fun e => by subst e; omega
        unfold Family.GoodAt
        rw [hs1, Function.update_of_ne hne]
        exact hgood c' hc'.le
      obtain ⟨r1, r2, r3⟩ := F.run_spec n (F.rank c)
        (fun c' p' s' hc' => ih c' p' s' (by omega)) (F.body c p) (hF.below c p) s1 hs1good
      have hev : (F.body c p).eval F.evalTop = F.evalTop c p := by
        rw [Family.evalTop, Family.evalN]
        apply Prog.eval_congr F.rank (F.rank c) _ _ _ _ (hF.below c p)
        intro c' p' hc'
        rw [F.evalN_eq hF.below (F.rank c) c' p' hc']
      rw [hev] at r1
      set r := (F.body c p).run (F.callN n) s1 with hr
      have hrc : r.1 c = { s c with list := (s c).list ++ [F.key c p] } := by
        rw [r3 c le_rfl, hs1, Function.update_self]
      have hrframe : ∀ c', F.rank c < F.rank c' → r.1 c' = s c' := by
        intro c' hc'
        have hne : c' ≠ c := fun e => by subst e; omega
        rw [r3 c' hc'.le, hs1, Function.update_of_ne hne]
      have hrsame : ∀ c', c' ≠ c → F.rank c' = F.rank c → r.1 c' = s c' := by
        intro c' hne hc'
        rw [r3 c' hc'.ge, hs1, Function.update_of_ne hne]
      rw [r1]
      cases hval : F.evalTop c p with
      | error e =>
        refine ⟨rfl, ?_, hrframe⟩
        intro c' hc'
        by_cases e1 : c' = c
        · subst e1
          unfold Family.GoodAt
          simp only
          rw [hrc]
          apply good_append_err hc
          rintro v ⟨p', hp', hv⟩
          rw [hF.det c' p' p hp', hval] at hv; cases hv
        · rcases lt_or_eq_of_le hc' with h | h
          · exact r2 c' h
          · unfold Family.GoodAt; simp only; rw [hrsame c' e1 h]; exact hgood c' hc'
      | ok v =>
        simp only
        have hins := good_insert hc hg ⟨p, rfl, hval⟩ (hF.limit c)
        rw [hrc]
        refine ⟨?_, ?_, ?_⟩
        · rw [Dict.get!, hins.2]
        · intro c' hc'
          by_cases e1 : c' = c
          · subst e1
            unfold Family.GoodAt
            rw [Function.update_self]
            exact hins.1
          · unfold Family.GoodAt
            rw [Function.update_of_ne e1]
            rcases lt_or_eq_of_le hc' with h | h
            · exact r2 c' h
            · rw [hrsame c' e1 h]; exact hgood c' hc'
        · intro c' hc'
          have hne : c' ≠ c := fun e => by subst e; omega
          rw [Function.update_of_ne hne, hrframe c' hc']

/-- Fresh object. -/
def Family.fresh : FState C κ V := fun _ => CState.empty

theorem Family.callTop_spec (F : Family C P κ V) (hF : F.Ok) (c : C) (p : P) (s : FState C κ V)
    (hs : ∀ c', F.GoodAt s c') :
    (F.callTop c p s).2 = F.evalTop c p ∧ ∀ c', F.GoodAt (F.callTop c p s).1 c' := by
  obtain ⟨h1, h2, h3⟩ := F.callN_spec hF (F.rank c + 1) c p s (by omega) fun c' _ => hs c'
  refine ⟨h1, ?_⟩
  intro c'
  by_cases h : F.rank c' ≤ F.rank c
  · exact h2 c' h
  · unfold Family.GoodAt Family.callTop
    rw [h3 c' (by omega)]; exact hs c'

theorem Family.runHist_spec (F : Family C P κ V) (hF : F.Ok) (hist : List (C × P))
    (s : FState C κ V) (hs : ∀ c', F.GoodAt s c') :
    (F.runHist hist s).2 = hist.map (fun cp => F.evalTop cp.1 cp.2) ∧
      ∀ c', F.GoodAt (F.runHist hist s).1 c' := by
  induction hist generalizing s with
  | nil => exact ⟨rfl, hs⟩
  | cons cp t ih =>
    obtain ⟨c, p⟩ := cp
    obtain ⟨h1, h2⟩ := F.callTop_spec hF c p s hs
    obtain ⟨i1, i2⟩ := ih _ h2
    unfold Family.runHist
    simp only [h1, i1, List.map_cons, true_and]
    exact i2

end Verif.Cache
