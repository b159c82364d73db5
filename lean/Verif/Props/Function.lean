import Verif.Model.Function
import Verif.Lemmas.Dict

/-! # C34-C36, C80: Functions and their arguments -/

set_option linter.unusedSectionVars false

namespace Verif.Fun

open Verif

variable {V : Type}

/-! ## C34: precedence -/

theorem get?_setOpt (d : Dict String V) (kw k : String) (o : Option V) :
    Dict.get? (setOpt d kw o) k = if k = kw then (match o with | some v => some v | none => Dict.get? d k)
      else Dict.get? d k := by
  cases o with
  | none => simp [setOpt]
  | some v =>
    simp only [setOpt]
    rw [Dict.get?_set]
    by_cases h : k = kw
    · subst h; simp
    · have h' : ¬ kw = k := fun e => h e.symm
      simp [h, h']

theorem augment_keep (items : Items V) : ∀ (pars : Dict String (ParRef V)) (dfl kwargs params r : Dict String V),
    items.augment pars dfl kwargs params = .ok r → ∀ k, k ∉ items.keys → Dict.get? r k = Dict.get? kwargs k := by
  match items with
  | .nil => intro pars dfl kwargs params r h k _; cases h; rfl
  | .cons kw it rest =>
    intro pars dfl kwargs params r h k hk
    have hk1 : k ≠ kw := fun e => hk (by simp [Items.keys, e])
    have hk2 : k ∉ rest.keys := fun e => hk (by simp [Items.keys, e])
    unfold Items.augment at h
    split at h
    · exact augment_keep rest _ _ _ _ _ h k hk2
    · split at h
      · rw [augment_keep rest _ _ _ _ _ h k hk2, get?_setOpt, if_neg hk1]
      · split at h
        · rw [augment_keep rest _ _ _ _ _ h k hk2, Dict.get?_set_ne _ _ (Ne.symm hk1)]
        · split at h
          · cases h
          · rw [augment_keep rest _ _ _ _ _ h k hk2, get?_setOpt, if_neg hk1]

theorem augment_explicit (items : Items V) : ∀ (pars : Dict String (ParRef V)) (dfl kwargs params r : Dict String V),
    items.augment pars dfl kwargs params = .ok r → ∀ k v, Dict.get? kwargs k = some v → Dict.get? r k = some v := by
  match items with
  | .nil => intro pars dfl kwargs params r h k v hv; cases h; exact hv
  | .cons kw it rest =>
    intro pars dfl kwargs params r h k v hv
    unfold Items.augment at h
    split at h
    · exact augment_explicit rest _ _ _ _ _ h k v hv
    · rename_i hn
      have hk : k ≠ kw := by rintro rfl; simp [hv] at hn
      split at h
      · exact augment_explicit rest _ _ _ _ _ h k v (by rw [get?_setOpt, if_neg hk]; exact hv)
      · split at h
        · exact augment_explicit rest _ _ _ _ _ h k v (by rw [Dict.get?_set_ne _ _ (Ne.symm hk)]; exact hv)
        · split at h
          · cases h
          · exact augment_explicit rest _ _ _ _ _ h k v (by rw [get?_setOpt, if_neg hk]; exact hv)

/-- The item given for a keyword. -/
def Items.find? : Items V → String → Option (Item V)
  | .nil, _ => none
  | .cons kw it rest, k => if kw = k then some it else rest.find? k

theorem find?_mem (items : Items V) : ∀ k it, items.find? k = some it → k ∈ items.keys := by
  match items with
  | .nil => intro k it h; cases h
  | .cons kw it' rest =>
    intro k it h
    unfold Items.find? at h
    split at h
    · rename_i e; simp [Items.keys, e]
    · simp [Items.keys, find?_mem rest k it h]

/-- What the rules say a keyword receives when it was not given explicitly: `pars` and `dfl` are the
registered parameters and defaults; a nested Function is last and sees `seen`. -/
def ruleValue (pars : Dict String (ParRef V)) (dfl params : Dict String V) (it : Item V) (k : String)
    (seen : Dict String V) : Except PyErr (Option V) :=
  match Dict.get? pars k with
  | some p =>
    match Dict.get? params p.name with
    | some v => .ok (some v)
    | none => .ok p.const
  | none =>
    match Dict.get? dfl k with
    | some v => .ok (some v)
    | none => it.eval seen params

theorem augment_rule (items : Items V) : ∀ (pars : Dict String (ParRef V)) (dfl kwargs params r : Dict String V),
    items.keys.Nodup → items.augment pars dfl kwargs params = .ok r → ∀ k it, items.find? k = some it →
    Dict.get? kwargs k = none → ∃ seen, (∀ k' v, Dict.get? seen k' = some v → Dict.get? r k' = some v) ∧
      (∀ k' v, Dict.get? seen k' = some v → k' ∈ items.keys ∨ Dict.get? kwargs k' = some v) ∧
      ruleValue pars dfl params it k seen = .ok (Dict.get? r k) := by
  match items with
  | .nil => intro pars dfl kwargs params r _ _ k it hf; cases hf
  | .cons kw it' rest =>
    intro pars dfl kwargs params r hnd h k it hf hk
    have hnd' : kw ∉ rest.keys ∧ rest.keys.Nodup := List.nodup_cons.1 hnd
    unfold Items.find? at hf
    split at hf
    · -- this keyword
      rename_i e
      subst e
      cases hf
      refine ⟨kwargs, fun k' v hv => augment_explicit _ _ _ _ _ _ h k' v hv, fun k' v hv => Or.inr hv, ?_⟩
      unfold Items.augment at h
      rw [hk] at h
      simp only [Option.isSome_none, Bool.false_eq_true, if_false] at h
      unfold ruleValue
      cases hp : Dict.get? pars kw with
      | some p =>
        rw [hp] at h
        simp only at h ⊢
        rw [augment_keep rest _ _ _ _ _ h kw hnd'.1, get?_setOpt, if_pos rfl, hk]
        unfold parValue
        cases hv : Dict.get? params p.name with
        | some v => rfl
        | none => cases p.const <;> rfl
      | none =>
        rw [hp] at h
        simp only at h ⊢
        cases hd : Dict.get? dfl kw with
        | some v =>
          rw [hd] at h
          simp only at h ⊢
          rw [augment_keep rest _ _ _ _ _ h kw hnd'.1, Dict.get?_set_self]
        | none =>
          rw [hd] at h
          simp only at h ⊢
          cases he : it'.eval kwargs params with
          | error e => rw [he] at h; cases h
          | ok o =>
            rw [he] at h
            simp only at h
            rw [augment_keep rest _ _ _ _ _ h kw hnd'.1, get?_setOpt, if_pos rfl, hk]
            cases o <;> rfl
    · -- a later keyword
      rename_i e
      have hek : k ≠ kw := fun h => e h.symm
      have hlift : ∀ (kwargs' : Dict String V), rest.augment pars dfl kwargs' params = .ok r →
          Dict.get? kwargs' k = none →
          (∀ k' v, Dict.get? kwargs' k' = some v → k' = kw ∨ Dict.get? kwargs k' = some v) →
          ∃ seen, (∀ k' v, Dict.get? seen k' = some v → Dict.get? r k' = some v) ∧
            (∀ k' v, Dict.get? seen k' = some v → k' ∈ (Items.cons kw it' rest).keys ∨ Dict.get? kwargs k' = some v) ∧
            ruleValue pars dfl params it k seen = .ok (Dict.get? r k) := by
        intro kwargs' h' hk' hsub
        obtain ⟨seen, h1, h2, h3⟩ := augment_rule rest pars dfl kwargs' params r hnd'.2 h' k it hf hk'
        refine ⟨seen, h1, ?_, h3⟩
        intro k' v hv
        rcases h2 k' v hv with h2 | h2
        · left; simp [Items.keys, h2]
        · rcases hsub k' v h2 with h4 | h4
          · left; simp [Items.keys, h4]
          · right; exact h4
      have hso : ∀ o : Option V, ∀ k' v, Dict.get? (setOpt kwargs kw o) k' = some v →
          k' = kw ∨ Dict.get? kwargs k' = some v := by
        intro o k' v hv
        rw [get?_setOpt] at hv
        split at hv
        · left; assumption
        · right; exact hv
      unfold Items.augment at h
      split at h
      · exact hlift kwargs h hk fun k' v hv => Or.inr hv
      · split at h
        · exact hlift _ h (by rw [get?_setOpt, if_neg hek]; exact hk) (hso _)
        · split at h
          · rename_i v _
            refine hlift _ h (by rw [Dict.get?_set_ne _ _ (Ne.symm hek)]; exact hk) ?_
            exact hso (some v)
          · split at h
            · cases h
            · exact hlift _ h (by rw [get?_setOpt, if_neg hek]; exact hk) (hso _)

theorem get?_filter (d : Dict String V) (f : String → Bool) (k : String) :
    Dict.get? (d.filter fun kv => f kv.1) k = if f k then Dict.get? d k else none := by
  induction d with
  | nil => simp
  | cons kv t ih =>
    by_cases hf : f kv.1 = true
    · rw [List.filter_cons_of_pos (by simpa using hf)]
      obtain ⟨k', v⟩ := kv
      rw [Dict.get?_cons, Dict.get?_cons, ih]
      by_cases he : k' = k
      · subst he; simp only at hf; simp [hf]
      · simp [he]
    · rw [List.filter_cons_of_neg (by simpa using hf), ih]
      obtain ⟨k', v⟩ := kv
      rw [Dict.get?_cons]
      by_cases he : k' = k
      · subst he; simp only at hf; simp [hf]
      · simp [he]

theorem get?_addPsr_ne (psr : Option V) (d : Dict String V) (k : String) (h : k ≠ "psr") :
    Dict.get? (addPsr psr d) k = Dict.get? d k := by
  unfold addPsr
  cases psr with
  | none => rfl
  | some p =>
    simp only
    split
    · rfl
    · rw [Dict.get?_set_ne _ _ (Ne.symm h)]

theorem find_err (kwargs params : Dict String V) (e : PyErr) (items : Items V) (its : Items V) :
    ∀ (pars : Dict String (ParRef V)) (dfl kw : Dict String V),
        (∀ k it, its.find? k = some it → items.find? k = some it) → its.keys.Nodup →
        (∀ k, k ∈ its.keys → Dict.get? kwargs k ≠ none → Dict.get? kw k ≠ none) →
        its.augment pars dfl kw params = .error e →
        ∃ k f, items.find? k = some (.fn f) ∧ Dict.get? kwargs k = none ∧
          ∃ sub, f.call [] sub params = .error e := by
  match its with
  | .nil => intro pars dfl kw _ _ _ h; cases h
  | .cons kwd it rest =>
    intro pars dfl kw hsub hnd hex h
    have hnd' : kwd ∉ rest.keys ∧ rest.keys.Nodup := List.nodup_cons.1 hnd
    have hsub' : ∀ k it', rest.find? k = some it' → items.find? k = some it' := by
      intro k it' hk
      apply hsub
      unfold Items.find?
      rw [if_neg, hk]
      rintro rfl
      exact hnd'.1 (find?_mem rest _ _ hk)
    have hex' : ∀ o : Option V, ∀ k, k ∈ rest.keys → Dict.get? kwargs k ≠ none →
        Dict.get? (setOpt kw kwd o) k ≠ none := by
      intro o k hk hk2
      rw [get?_setOpt, if_neg (by rintro rfl; exact hnd'.1 hk)]
      exact hex k (by simp [Items.keys, hk]) hk2
    unfold Items.augment at h
    split at h
    · exact find_err kwargs params e items rest pars dfl kw hsub' hnd'.2 (fun k hk => hex k (by simp [Items.keys, hk])) h
    · rename_i hn
      split at h
      · exact find_err kwargs params e items rest pars dfl _ hsub' hnd'.2 (hex' _) h
      · split at h
        · rename_i v _
          exact find_err kwargs params e items rest pars dfl _ hsub' hnd'.2 (hex' (some v)) h
        · split at h
          · rename_i e2 he
            cases h
            cases it with
            | par p => simp [Item.eval] at he
            | val v => simp [Item.eval] at he
            | fn f =>
              refine ⟨kwd, f, hsub kwd _ (by simp [Items.find?]), ?_, ?_⟩
              · by_contra hc
                have := hex kwd (by simp [Items.keys]) hc
                cases hg : Dict.get? kw kwd with
                | none => exact this hg
                | some v => rw [hg] at hn; simp at hn
              · unfold Item.eval at he
                split at he
                · rename_i e3 hc; cases he; exact ⟨_, hc⟩
                · cases he
          · exact find_err kwargs params e items rest pars dfl _ hsub' hnd'.2 (hex' _) h

/-- C34: what the wrapped function is called with.  Whenever a Function call gets as far as calling
the wrapped function, it is called with the positional arguments unchanged and with keywords
`D` such that
* only keywords of the definition, arguments of the function, and `psr`, `mask`, `size` occur;
* an explicitly given keyword of these has the given value;
* every other keyword of the definition has, in this order of precedence, the value of its
  parameter in `params`, the Constant's value, the default, or the value of the nested Function
  (called with a part of `D`); a parameter without value leaves the keyword out;
* a function argument that is neither explicit nor a keyword of the definition is left out;
* `psr` is the Function's pulsar unless given. -/
theorem C34_precedence (body : Body V) (fargs : List String) (psr : Option V) (items : Items V)
    (added : Dict String V) (args : List V) (kwargs params : Dict String V) (hnd : items.keys.Nodup)
    (hpsr : "psr" ∉ items.keys) :
    (∃ e, (Fn.mk body fargs psr items added).call args kwargs params = .error e ∧
      ∃ k f, items.find? k = some (.fn f) ∧ Dict.get? kwargs k = none ∧
        ∃ sub, f.call [] sub params = .error e) ∨
    ∃ D, (Fn.mk body fargs psr items added).call args kwargs params = body args D ∧
      (∀ k v, Dict.get? D k = some v → k ∈ items.keys ∨ k ∈ fargs ∨ k ∈ ["psr", "mask", "size"]) ∧
      (∀ k v, Dict.get? kwargs k = some v → (k ∈ items.keys ∨ k ∈ fargs ∨ k ∈ ["psr", "mask", "size"]) →
        Dict.get? D k = some v) ∧
      (∀ k it, items.find? k = some it → Dict.get? kwargs k = none →
        ∃ seen, (∀ k' v, Dict.get? seen k' = some v → Dict.get? D k' = some v ∨ Dict.get? kwargs k' = some v) ∧
          ruleValue (Fn.mk body fargs psr items added).params (Dict.update items.defaults added) params it k seen =
            .ok (Dict.get? D k)) ∧
      (∀ k, k ∉ items.keys → k ≠ "psr" → Dict.get? kwargs k = none → Dict.get? D k = none) ∧
      (Dict.get? kwargs "psr" = none → Dict.get? D "psr" = psr) := by
  have hpar : (Fn.mk body fargs psr items added).params = items.params [] := by rw [Fn.params]
  rw [hpar]
  cases h : items.augment (items.params []) (Dict.update items.defaults added) kwargs params with
  | error e =>
    left
    refine ⟨e, by rw [Fn.call, h], ?_⟩
    exact find_err kwargs params e items items _ _ kwargs (fun _ _ h => h) hnd (fun _ _ h => h) h
  | ok kw1 =>
    right
    refine ⟨(addPsr psr kw1).filter fun kv => allowed items.keys fargs kv.1, by rw [Fn.call, h], ?_, ?_, ?_, ?_, ?_⟩
    · intro k v hk
      rw [get?_filter] at hk
      split at hk
      · rename_i ha; simpa [allowed] using ha
      · cases hk
    · intro k v hk ha
      rw [get?_filter, if_pos (by simpa [allowed] using ha)]
      have h1 := augment_explicit items _ _ _ _ _ h k v hk
      by_cases hp : k = "psr"
      · subst hp
        unfold addPsr
        cases psr with
        | none => exact h1
        | some p => simp [h1]
      · rw [get?_addPsr_ne _ _ _ hp]; exact h1
    · intro k it hf hk
      obtain ⟨seen, h1, h2, h3⟩ := augment_rule items _ _ _ _ _ hnd h k it hf hk
      have hkm := find?_mem items k it hf
      have hkp : k ≠ "psr" := by rintro rfl; exact hpsr hkm
      have hD : ∀ k', k' ∈ items.keys → Dict.get? ((addPsr psr kw1).filter fun kv => allowed items.keys fargs kv.1) k' =
          Dict.get? kw1 k' := by
        intro k' hk'
        rw [get?_filter, if_pos (by simp [allowed, hk']), get?_addPsr_ne _ _ _ (by rintro rfl; exact hpsr hk')]
      refine ⟨seen, ?_, ?_⟩
      · intro k' v hv
        rcases h2 k' v hv with h4 | h4
        · left; rw [hD k' h4]; exact h1 k' v hv
        · right; exact h4
      · rw [h3, hD k hkm]
    · intro k hk hkp hkn
      rw [get?_filter]
      split
      · rw [get?_addPsr_ne _ _ _ hkp, augment_keep items _ _ _ _ _ h k hk, hkn]
      · rfl
    · intro hk
      rw [get?_filter, if_pos (by simp [allowed])]
      have h1 : Dict.get? kw1 "psr" = none := by rw [augment_keep items _ _ _ _ _ h _ hpsr, hk]
      unfold addPsr
      cases psr with
      | none => exact h1
      | some p => simp [h1, Dict.get?_set_self]

theorem augment_congr (params : Dict String V) (its : Items V) :
    ∀ (pars : Dict String (ParRef V)) (d d' kwargs : Dict String V),
      (∀ k ∈ its.keys, Dict.get? d k = Dict.get? d' k) →
      its.augment pars d kwargs params = its.augment pars d' kwargs params := by
  match its with
  | .nil => intro pars d d' kwargs _; rw [Items.augment, Items.augment]
  | .cons kw it rest =>
    intro pars d d' kwargs h
    have hr : ∀ k ∈ rest.keys, Dict.get? d k = Dict.get? d' k := fun k hk => h k (by simp [Items.keys, hk])
    have h0 := h kw (by simp [Items.keys])
    rw [Items.augment, Items.augment, h0]
    simp only [augment_congr params rest pars d d' _ hr]

/-- `func=` only replaces the function that is called (used by samplers): any call with `func=g`
calls `g` with what the original function would have been called with. -/
theorem C34_func_override (body g : Body V) (fargs : List String) (psr : Option V) (items : Items V)
    (added : Dict String V) (args : List V) (kwargs params : Dict String V) :
    (∃ e, (∀ b : Body V, (Fn.mk b fargs psr items added).call args kwargs params = .error e) ∧
      (Fn.mk body fargs psr items added).callWith g args kwargs params = .error e) ∨
    ∃ D, (∀ b : Body V, (Fn.mk b fargs psr items added).call args kwargs params = b args D) ∧
      (Fn.mk body fargs psr items added).callWith g args kwargs params = g args D := by
  cases h : items.augment (items.params []) (Dict.update items.defaults added) kwargs params with
  | error e =>
    left
    exact ⟨e, fun b => by rw [Fn.call, h], by rw [Fn.callWith, Fn.call, h]⟩
  | ok kw1 =>
    right
    exact ⟨(addPsr psr kw1).filter fun kv => allowed items.keys fargs kv.1, fun b => by rw [Fn.call, h],
      by rw [Fn.callWith, Fn.call, h]⟩

/-- `add_kwarg` changes nothing for keywords that are not in the definition: the call behaves as
before, so a new keyword is silently ignored. -/
theorem C34_add_kwarg_ignored (f : Fn V) (kw : Dict String V) (h : ∀ k ∈ kw.map Prod.fst, k ∉ f.keys)
    (args : List V) (kwargs params : Dict String V) :
    (f.addKwarg kw).call args kwargs params = f.call args kwargs params := by
  obtain ⟨body, fargs, psr, items, added⟩ := f
  have hget : ∀ k ∈ items.keys, Dict.get? (Dict.update items.defaults (Dict.update added kw)) k =
      Dict.get? (Dict.update items.defaults added) k := by
    intro k hk
    have hk' : k ∉ kw.map Prod.fst := fun hm => h k hm hk
    have h1 : ∀ (e d : Dict String V), k ∉ e.map Prod.fst → Dict.get? (Dict.update d e) k = Dict.get? d k := by
      intro e
      induction e with
      | nil => intro d _; rfl
      | cons kv t ih =>
        intro d hn
        simp only [List.map_cons, List.mem_cons, not_or] at hn
        show Dict.get? (Dict.update (Dict.set d kv.1 kv.2) t) k = _
        rw [ih _ hn.2, Dict.get?_set_ne _ _ (Ne.symm hn.1)]
    have h2 : ∀ (kw added : Dict String V), k ∉ kw.map Prod.fst → ∀ d : Dict String V,
        Dict.get? (Dict.update d (Dict.update added kw)) k = Dict.get? (Dict.update d added) k := by
      intro kw
      induction kw with
      | nil => intro added _ d; rfl
      | cons kv t ih =>
        intro added hn d
        simp only [List.map_cons, List.mem_cons, not_or] at hn
        show Dict.get? (Dict.update d (Dict.update (Dict.set added kv.1 kv.2) t)) k = _
        rw [ih _ hn.2]
        -- one `set` of another key
        have h3 : ∀ (added d : Dict String V), Dict.get? (Dict.update d (Dict.set added kv.1 kv.2)) k =
            Dict.get? (Dict.update d added) k := by
          intro added
          induction added with
          | nil =>
            intro d
            show Dict.get? (Dict.set d kv.1 kv.2) k = _
            rw [Dict.get?_set_ne _ _ (Ne.symm hn.1)]; rfl
          | cons a t2 ih2 =>
            intro d
            unfold Dict.set
            split
            · rename_i he
              -- same key replaced: both updates agree away from it
              show Dict.get? (Dict.update (Dict.set d a.1 kv.2) t2) k = Dict.get? (Dict.update (Dict.set d a.1 a.2) t2) k
              have hak : k ≠ a.1 := by rw [he]; exact hn.1
              have h4 : ∀ (t : Dict String V) (d d' : Dict String V), Dict.get? d k = Dict.get? d' k →
                  Dict.get? (Dict.update d t) k = Dict.get? (Dict.update d' t) k := by
                intro t
                induction t with
                | nil => intro d d' hh; exact hh
                | cons b t ih => intro d d' hh
                                 apply ih
                                 rw [Dict.get?_set, Dict.get?_set, hh]
              apply h4
              rw [Dict.get?_set_ne _ _ (Ne.symm hak), Dict.get?_set_ne _ _ (Ne.symm hak)]
            · exact ih2 _
        exact h3 added d
    exact h2 kw added hk' _
  have haug : ∀ (its : Items V) (pars : Dict String (ParRef V)) (d d' kwargs : Dict String V),
      (∀ k ∈ its.keys, Dict.get? d k = Dict.get? d' k) →
      its.augment pars d kwargs params = its.augment pars d' kwargs params := by
    intro its
    exact augment_congr params its
  rw [Fn.addKwarg, Fn.call, Fn.call, haug items _ _ _ kwargs hget]

/-- A Function `f(a=Par, b=2, c=Const, d=Par)` on a parameter dictionary, with `b` given explicitly, an
unknown keyword, and a parameter that has no value: the wrapped function gets `a, b, c` and the
pulsar. -/
example :
    let body : Body Nat := fun args kw => .ok (
      args.sum + 10 * (Dict.get? kw "a").getD 0 + 100 * (Dict.get? kw "b").getD 0 + 1000 * (Dict.get? kw "c").getD 0 +
        10000 * kw.length)
    let f : Fn Nat := .mk body ["x"] (some 7)
      (.cons "a" (.par ⟨"p_a", none⟩) (.cons "b" (.val 2) (.cons "c" (.par ⟨"p_c", some 5⟩)
        (.cons "d" (.par ⟨"p_d", none⟩) .nil)))) []
    f.call [1] [("b", 3), ("zz", 9)] [("p_a", 4), ("other", 8)] = .ok (1 + 40 + 300 + 5000 + 40000) := by
  decide +kernel

/-! ## C35: nesting -/

mutual
/-- All keywords of a Function and of the Functions nested in it. -/
def Fn.allKeys : Fn V → List String
  | .mk _ _ _ items _ => items.allKeys
def Items.allKeys : Items V → List String
  | .nil => []
  | .cons kw it rest => kw :: (it.allKeys ++ rest.allKeys)
def Item.allKeys : Item V → List String
  | .fn f => f.allKeys
  | .par _ => []
  | .val _ => []
end

mutual
/-- What is meant by a Function (specification): every keyword is what was written for it; a
Parameter has its value in `params` or its constant value, a nested Function is evaluated by
itself. -/
def Fn.intended : Fn V → Dict String V → Except PyErr V
  | .mk body _ psr items _, params =>
    match items.intended params with
    | .error e => .error e
    | .ok d => body [] (d ++ psr.toList.map fun p => ("psr", p))
def Items.intended : Items V → Dict String V → Except PyErr (Dict String V)
  | .nil, _ => .ok []
  | .cons kw it rest, params =>
    match it.intended params with
    | .error e => .error e
    | .ok o =>
      match rest.intended params with
      | .error e => .error e
      | .ok d => .ok (o.toList.map (fun v => (kw, v)) ++ d)
def Item.intended : Item V → Dict String V → Except PyErr (Option V)
  | .par p, params =>
    .ok (match Dict.get? params p.name with
      | some v => some v
      | none => p.const)
  | .val v, _ => .ok (some v)
  | .fn f, params =>
    match f.intended params with
    | .error e => .error e
    | .ok v => .ok (some v)
end

mutual
/-- No keyword of a Function occurs anywhere inside the Functions given for its keywords. -/
def Fn.Clean : Fn V → Prop
  | .mk _ _ _ items added => added = [] ∧ items.keys.Nodup ∧ "psr" ∉ items.keys ∧ items.Clean items.keys
def Items.Clean : Items V → List String → Prop
  | .nil, _ => True
  | .cons _ it rest, outer => it.Clean outer ∧ rest.Clean outer
def Item.Clean : Item V → List String → Prop
  | .fn f, outer => (∀ k ∈ f.allKeys, k ∉ outer) ∧ f.Clean
  | .par _, _ => True
  | .val _, _ => True
end

theorem keys_update {α : Type} (d e : Dict String α) (k : String) :
    k ∈ (Dict.update d e).map Prod.fst ↔ k ∈ d.map Prod.fst ∨ k ∈ e.map Prod.fst := by
  induction e generalizing d with
  | nil => simp [Dict.update]
  | cons kv t ih =>
    show k ∈ (Dict.update (Dict.set d kv.1 kv.2) t).map Prod.fst ↔ _
    rw [ih, Dict.mem_keys_set]
    simp only [List.map_cons, List.mem_cons]
    tauto

mutual
theorem params_keys_fn (f : Fn V) : ∀ k ∈ f.params.map Prod.fst, k ∈ f.allKeys := by
  match f with
  | .mk body fargs psr items added =>
    intro k hk
    rw [Fn.params] at hk
    rw [Fn.allKeys]
    rcases params_keys_items items [] k hk with h | h
    · simp at h
    · exact h
theorem params_keys_items (items : Items V) : ∀ (acc : Dict String (ParRef V)), ∀ k ∈ (items.params acc).map Prod.fst,
    k ∈ acc.map Prod.fst ∨ k ∈ items.allKeys := by
  match items with
  | .nil => intro acc k hk; rw [Items.params] at hk; exact Or.inl hk
  | .cons kw it rest =>
    intro acc k hk
    rw [Items.params] at hk
    rw [Items.allKeys]
    rcases params_keys_items rest _ k hk with h | h
    · rcases params_keys_item it kw acc k h with h | h | h
      · exact Or.inl h
      · right; simp [h]
      · right; simp [h]
    · right; simp [h]
theorem params_keys_item (it : Item V) : ∀ (kw : String) (acc : Dict String (ParRef V)),
    ∀ k ∈ (it.params kw acc).map Prod.fst, k ∈ acc.map Prod.fst ∨ k = kw ∨ k ∈ it.allKeys := by
  match it with
  | .par p =>
    intro kw acc k hk
    rw [Item.params, Dict.mem_keys_set] at hk
    rcases hk with h | h
    · exact Or.inr (Or.inl h)
    · exact Or.inl h
  | .val v => intro kw acc k hk; rw [Item.params] at hk; exact Or.inl hk
  | .fn f =>
    intro kw acc k hk
    rw [Item.params, keys_update] at hk
    rcases hk with h | h
    · exact Or.inl h
    · right; right; rw [Item.allKeys]; exact params_keys_fn f k h
end

theorem get?_update_of_notin {α : Type} (e d : Dict String α) (k : String) (h : k ∉ e.map Prod.fst) :
    Dict.get? (Dict.update d e) k = Dict.get? d k := by
  induction e generalizing d with
  | nil => rfl
  | cons kv t ih =>
    simp only [List.map_cons, List.mem_cons, not_or] at h
    show Dict.get? (Dict.update (Dict.set d kv.1 kv.2) t) k = _
    rw [ih _ h.2, Dict.get?_set_ne _ _ (Ne.symm h.1)]

/-- Registered parameters of a clean list of items: exactly the items that are parameters. -/
theorem params_get (items : Items V) : ∀ (acc : Dict String (ParRef V)) (outer : List String),
    items.keys.Nodup → items.Clean outer → (∀ k ∈ items.keys, k ∈ outer) →
    (∀ k ∈ outer, k ∉ items.keys → Dict.get? (items.params acc) k = Dict.get? acc k) ∧
    (∀ k it, items.find? k = some it → Dict.get? (items.params acc) k =
      match it with
      | .par p => some p
      | _ => Dict.get? acc k) := by
  match items with
  | .nil =>
    intro acc outer _ _ _
    refine ⟨fun k _ _ => by rw [Items.params], fun k it h => by cases h⟩
  | .cons kw it rest =>
    intro acc outer hnd hcl hsub
    have hnd' : kw ∉ rest.keys ∧ rest.keys.Nodup := List.nodup_cons.1 hnd
    rw [Items.Clean] at hcl
    obtain ⟨h1, h2⟩ := params_get rest (it.params kw acc) outer hnd'.2 hcl.2 fun k hk => hsub k (by simp [Items.keys, hk])
    have hitem : ∀ k ∈ outer, k ≠ kw → Dict.get? (it.params kw acc) k = Dict.get? acc k := by
      intro k hk hne
      cases it with
      | par p => rw [Item.params, Dict.get?_set_ne _ _ (Ne.symm hne)]
      | val v => rw [Item.params]
      | fn f =>
        rw [Item.params, get?_update_of_notin]
        intro hm
        have hc := hcl.1
        rw [Item.Clean] at hc
        exact hc.1 k (params_keys_fn f k hm) hk
    constructor
    · intro k hk hn
      simp only [Items.keys, List.mem_cons, not_or] at hn
      rw [Items.params, h1 k hk hn.2, hitem k hk hn.1]
    · intro k it' hf
      unfold Items.find? at hf
      rw [Items.params]
      split at hf
      · rename_i e
        subst e
        cases hf
        rw [h1 kw (hsub kw (by simp [Items.keys])) hnd'.1]
        cases it with
        | par p => simp [Item.params, Dict.get?_set_self]
        | val v => simp [Item.params]
        | fn f =>
          simp only
          rw [Item.params, get?_update_of_notin]
          intro hm
          have hc := hcl.1
          rw [Item.Clean] at hc
          exact hc.1 kw (params_keys_fn f kw hm) (hsub kw (by simp [Items.keys]))
      · rename_i e
        rw [h2 k it' hf]
        have hkr := find?_mem rest k it' hf
        cases it' with
        | par p => rfl
        | val v => exact hitem k (hsub k (by simp [Items.keys, hkr])) fun h => e h.symm
        | fn f => exact hitem k (hsub k (by simp [Items.keys, hkr])) fun h => e h.symm

theorem defaults_notin (items : Items V) : ∀ k, k ∉ items.keys → Dict.get? items.defaults k = none := by
  match items with
  | .nil => intro k _; rfl
  | .cons kw it rest =>
    intro k hk
    simp only [Items.keys, List.mem_cons, not_or] at hk
    have ih := defaults_notin rest k hk.2
    cases it with
    | par p => simp only [Items.defaults]; exact ih
    | fn f => simp only [Items.defaults]; exact ih
    | val v => simp only [Items.defaults]; rw [Dict.get?_cons, if_neg (Ne.symm hk.1)]; exact ih

theorem defaults_get (items : Items V) : items.keys.Nodup → ∀ k it, items.find? k = some it →
    Dict.get? items.defaults k = match it with
      | .val v => some v
      | _ => none := by
  match items with
  | .nil => intro _ k it h; cases h
  | .cons kw it' rest =>
    intro hnd k it h
    have hnd' : kw ∉ rest.keys ∧ rest.keys.Nodup := List.nodup_cons.1 hnd
    have hnone : ∀ (r : Items V), kw ∉ r.keys → Dict.get? r.defaults kw = none := by
      intro r
      exact defaults_notin r kw
    unfold Items.find? at h
    split at h
    · rename_i e
      subst e
      cases h
      cases it' with
      | par p => simp only [Items.defaults]; exact hnone rest hnd'.1
      | fn f => simp only [Items.defaults]; exact hnone rest hnd'.1
      | val v => simp [Items.defaults, Dict.get?_cons]
    · rename_i e
      have ih := defaults_get rest hnd'.2 k it h
      cases it' with
      | par p => simp only [Items.defaults]; exact ih
      | fn f => simp only [Items.defaults]; exact ih
      | val v => simp only [Items.defaults]; rw [Dict.get?_cons, if_neg e]; exact ih

theorem keys_sub_allKeys (items : Items V) : ∀ k ∈ items.keys, k ∈ items.allKeys := by
  match items with
  | .nil => intro k hk; cases hk
  | .cons kw it rest =>
    intro k hk
    rw [Items.allKeys]
    simp only [Items.keys, List.mem_cons] at hk
    rcases hk with h | h
    · simp [h]
    · simp [keys_sub_allKeys rest k h]

theorem intended_keys (items : Items V) : ∀ (params d : Dict String V), items.intended params = .ok d →
    ∀ kv ∈ d, kv.1 ∈ items.keys := by
  match items with
  | .nil => intro params d h kv hkv; rw [Items.intended] at h; cases h; simp at hkv
  | .cons kw it rest =>
    intro params d h kv hkv
    rw [Items.intended] at h
    split at h
    · cases h
    · split at h
      · cases h
      · rename_i o _ d' hd
        cases h
        rcases List.mem_append.1 hkv with hkv | hkv
        · obtain ⟨v, -, rfl⟩ := List.mem_map.1 hkv
          simp [Items.keys]
        · have := intended_keys rest params d' hd kv hkv
          simp [Items.keys, this]

mutual
/-- C35 (partial): in a tree of Functions where no Function's keyword reappears inside the Functions
given for its keywords, a call evaluates every keyword as what was written for it.  Missing:
trees in which keywords are reused on a path (`C35_*_false`). -/
theorem C35_no_capture_partial (f : Fn V) (params : Dict String V) (h : f.Clean) :
    f.call [] [] params = f.intended params := by
  match f with
  | .mk body fargs psr items added =>
    rw [Fn.Clean] at h
    obtain ⟨hadd, hnd, hpsr, hcl⟩ := h
    subst hadd
    obtain ⟨-, hpg⟩ := params_get items [] items.keys hnd hcl fun k hk => hk
    have hdg := defaults_get items hnd
    have hget : ∀ k it, items.find? k = some it →
        match it with
        | .par p => Dict.get? (items.params []) k = some p
        | .val v => Dict.get? (items.params []) k = none ∧ Dict.get? (Dict.update items.defaults []) k = some v
        | .fn _ => Dict.get? (items.params []) k = none ∧ Dict.get? (Dict.update items.defaults []) k = none := by
      intro k it hf
      have h1 := hpg k it hf
      have h2 := hdg k it hf
      cases it with
      | par p => exact h1
      | val v => exact ⟨h1, h2⟩
      | fn g => exact ⟨h1, h2⟩
    have := augment_intended items (items.params []) (Dict.update items.defaults []) [] params items.keys hnd hcl
      (fun k hk => hk) (fun kv hkv => by simp at hkv) hget
    rw [Fn.call, Fn.intended, this]
    cases hi : items.intended params with
    | error e => rfl
    | ok d =>
      simp only [Except.map, List.nil_append]
      congr 1
      have hkeys := intended_keys items params d hi
      have hp : Dict.get? d "psr" = none := by
        rw [Dict.get?_eq_none_iff]
        intro hm
        obtain ⟨kv, hkv, he⟩ := List.mem_map.1 hm
        exact hpsr (by rw [← he]; exact hkeys kv hkv)
      unfold addPsr
      cases psr with
      | none =>
        simp only [Option.toList_none, List.map_nil, List.append_nil]
        rw [List.filter_eq_self]
        intro kv hkv
        simp [allowed, hkeys kv hkv]
      | some p =>
        simp only [hp, Option.isSome_none, Bool.false_eq_true, if_false, Option.toList_some, List.map_cons, List.map_nil]
        rw [Dict.set_of_not_mem _ ((Dict.get?_eq_none_iff _ _).1 hp), List.filter_eq_self]
        intro kv hkv
        rcases List.mem_append.1 hkv with hkv | hkv
        · simp [allowed, hkeys kv hkv]
        · simp only [List.mem_singleton] at hkv
          subst hkv
          simp [allowed]
theorem augment_intended (items : Items V) (pars : Dict String (ParRef V)) (dfl kwargs params : Dict String V)
    (outer : List String) (hnd : items.keys.Nodup) (hcl : items.Clean outer) (hsub : ∀ k ∈ items.keys, k ∈ outer)
    (hkw : ∀ kv ∈ kwargs, kv.1 ∈ outer ∧ kv.1 ∉ items.keys)
    (hget : ∀ k it, items.find? k = some it →
      match it with
      | .par p => Dict.get? pars k = some p
      | .val v => Dict.get? pars k = none ∧ Dict.get? dfl k = some v
      | .fn _ => Dict.get? pars k = none ∧ Dict.get? dfl k = none) :
    items.augment pars dfl kwargs params = (items.intended params).map (kwargs ++ ·) := by
  match items with
  | .nil => rw [Items.augment, Items.intended]; simp [Except.map]
  | .cons kw it rest =>
    have hnd' : kw ∉ rest.keys ∧ rest.keys.Nodup := List.nodup_cons.1 hnd
    rw [Items.Clean] at hcl
    have hfresh : kw ∉ kwargs.map Prod.fst := by
      intro hm
      obtain ⟨kv, hkv, he⟩ := List.mem_map.1 hm
      exact (hkw kv hkv).2 (by simp [Items.keys, he])
    have hnone : Dict.get? kwargs kw = none := (Dict.get?_eq_none_iff _ _).2 hfresh
    have hget' : ∀ k it', rest.find? k = some it' → match it' with
      | .par p => Dict.get? pars k = some p
      | .val v => Dict.get? pars k = none ∧ Dict.get? dfl k = some v
      | .fn _ => Dict.get? pars k = none ∧ Dict.get? dfl k = none := by
      intro k it' hf
      apply hget k it'
      unfold Items.find?
      rw [if_neg, hf]
      rintro rfl
      exact hnd'.1 (find?_mem rest _ _ hf)
    have hsub' : ∀ k ∈ rest.keys, k ∈ outer := fun k hk => hsub k (by simp [Items.keys, hk])
    have hnext : ∀ o : Option V, rest.augment pars dfl (setOpt kwargs kw o) params =
        (rest.intended params).map ((kwargs ++ o.toList.map fun v => (kw, v)) ++ ·) := by
      intro o
      have e : setOpt kwargs kw o = kwargs ++ o.toList.map fun v => (kw, v) := by
        cases o with
        | none => simp [setOpt]
        | some v => simp [setOpt, Dict.set_of_not_mem v hfresh]
      rw [e]
      apply augment_intended rest pars dfl _ params outer hnd'.2 hcl.2 hsub' _ hget'
      intro kv hkv
      rcases List.mem_append.1 hkv with hkv | hkv
      · have := hkw kv hkv
        exact ⟨this.1, fun hm => this.2 (by simp [Items.keys, hm])⟩
      · obtain ⟨v, -, rfl⟩ := List.mem_map.1 hkv
        exact ⟨hsub kw (by simp [Items.keys]), hnd'.1⟩
    have h0 := hget kw it (by simp [Items.find?])
    have hfin : ∀ o : Option V, it.intended params = .ok o →
        (rest.intended params).map ((kwargs ++ o.toList.map fun v => (kw, v)) ++ ·) =
          ((Items.cons kw it rest).intended params).map (kwargs ++ ·) := by
      intro o ho
      rw [Items.intended, ho]
      cases rest.intended params with
      | error e => rfl
      | ok d => simp [Except.map]
    rw [Items.augment, hnone]
    simp only [Option.isSome_none, Bool.false_eq_true, if_false]
    match it with
    | .par p =>
      simp only at h0
      rw [h0]
      simp only
      rw [hnext]
      exact hfin _ (by rw [Item.intended]; rfl)
    | .val v =>
      simp only at h0
      rw [h0.1, h0.2]
      simp only
      have := hnext (some v)
      simp only [setOpt] at this
      rw [this]
      exact hfin _ (by rw [Item.intended])
    | .fn f =>
      simp only at h0
      rw [h0.1, h0.2]
      simp only
      have hc := hcl.1
      rw [Item.Clean] at hc
      have hfil : (kwargs.filter fun kv => decide (kv.1 ∈ f.keys)) = [] := by
        rw [List.filter_eq_nil_iff]
        intro kv hkv hm
        simp only [decide_eq_true_eq] at hm
        have hak : kv.1 ∈ f.allKeys := by
          obtain ⟨b, fa, ps, its, ad⟩ := f
          rw [Fn.allKeys]
          exact keys_sub_allKeys its kv.1 hm
        exact hc.1 kv.1 hak (hkw kv hkv).1
      rw [Item.eval, hfil]
      have ihf := C35_no_capture_partial f params hc.2
      rw [ihf]
      cases hfi : f.intended params with
      | error e =>
        rw [Items.intended, Item.intended, hfi]
        rfl
      | ok v =>
        simp only
        rw [hnext]
        exact hfin (some v) (by rw [Item.intended, hfi])
end

/-- A tree with reused keywords that is still clean: siblings may share keywords. -/
example :
    let g (n : String) : Fn Nat := .mk (fun _ kw => .ok ((Dict.get? kw "x").getD 0)) [] none
      (.cons "x" (.par ⟨n, none⟩) .nil) []
    let f : Fn Nat := .mk (fun _ kw => .ok (10 * (Dict.get? kw "u").getD 0 + (Dict.get? kw "v").getD 0)) [] none
      (.cons "u" (.fn (g "u_x")) (.cons "v" (.fn (g "v_x")) .nil)) []
    f.Clean ∧ f.call [] [] [("u_x", 3), ("v_x", 4)] = .ok 34 := by
  constructor
  · simp [Fn.Clean, Items.Clean, Item.Clean, Items.keys, Fn.allKeys, Items.allKeys, Item.allKeys]
  · decide +kernel

/-- The Function used in the counterexamples: returns its keyword `a`. -/
def getA (it : Item Nat) : Fn Nat :=
  .mk (fun _ kw => .ok ((Dict.get? kw "a").getD 0)) [] none (.cons "a" it .nil) []

/-- Outer function of the counterexamples: ten times `a` plus `g`. -/
def outer (items : Items Nat) : Fn Nat :=
  .mk (fun _ kw => .ok (10 * (Dict.get? kw "a").getD 0 + (Dict.get? kw "g").getD 0)) [] none items []

/-- C35 is false (1): a Parameter given before a nested Function whose keyword has the same name is
replaced by the nested Function's Parameter. -/
theorem C35_parameter_false (va vga : Nat) :
    (outer (.cons "a" (.par ⟨"a", none⟩) (.cons "g" (.fn (getA (.par ⟨"g_a", none⟩))) .nil))).call [] []
      [("a", va), ("g_a", vga)] = .ok (10 * vga + vga) ∧
    (outer (.cons "a" (.par ⟨"a", none⟩) (.cons "g" (.fn (getA (.par ⟨"g_a", none⟩))) .nil))).intended
      [("a", va), ("g_a", vga)] = .ok (10 * va + vga) := ⟨rfl, rfl⟩

/-- C35 is false (2): so is a plain value. -/
theorem C35_value_false (v vga : Nat) :
    (outer (.cons "a" (.val v) (.cons "g" (.fn (getA (.par ⟨"g_a", none⟩))) .nil))).call [] [] [("g_a", vga)] =
      .ok (10 * vga + vga) ∧
    (outer (.cons "a" (.val v) (.cons "g" (.fn (getA (.par ⟨"g_a", none⟩))) .nil))).intended [("g_a", vga)] =
      .ok (10 * v + vga) := ⟨rfl, rfl⟩

/-- C35 is false (3): a nested Function's own value is replaced by the outer keyword evaluated before
it. -/
theorem C35_inner_false (v w : Nat) :
    (outer (.cons "a" (.val v) (.cons "g" (.fn (getA (.val w))) .nil))).call [] [] [] = .ok (10 * v + v) ∧
    (outer (.cons "a" (.val v) (.cons "g" (.fn (getA (.val w))) .nil))).intended [] = .ok (10 * v + w) := ⟨rfl, rfl⟩

/-- The order of the keywords matters: the other way round the nested Function keeps its own. -/
theorem C35_order_matters (v w : Nat) :
    (outer (.cons "g" (.fn (getA (.val w))) (.cons "a" (.val v) .nil))).call [] [] [] = .ok (10 * v + w) := rfl

/-! ## C80: the parameter list of a Function -/

mutual
/-- All parameters (and constants) written anywhere in the tree, with their keywords. -/
def Fn.written : Fn V → List (String × ParRef V)
  | .mk _ _ _ items _ => items.written
def Items.written : Items V → List (String × ParRef V)
  | .nil => []
  | .cons kw it rest => it.written kw ++ rest.written
def Item.written : Item V → String → List (String × ParRef V)
  | .par p, kw => [(kw, p)]
  | .fn f, _ => f.written
  | .val _, _ => []
end

mutual
/-- C80 (partial): if no two parameters in a tree of Functions have the same keyword, the Function
registers every parameter written in the tree exactly once, in order.  Missing: trees with
repeated keywords (`C80_lost_false`). -/
theorem C80_registered_partial (f : Fn V) (h : (f.written.map Prod.fst).Nodup) : f.params = f.written := by
  match f with
  | .mk body fargs psr items added =>
    rw [Fn.written] at h ⊢
    rw [Fn.params]
    have := params_written items [] (by simpa using h)
    simpa using this
theorem params_written (items : Items V) : ∀ (acc : Dict String (ParRef V)),
    ((acc ++ items.written).map Prod.fst).Nodup → items.params acc = acc ++ items.written := by
  match items with
  | .nil => intro acc _; rw [Items.params, Items.written]; simp
  | .cons kw it rest =>
    intro acc h
    rw [Items.written] at h ⊢
    have h1 : ((acc ++ it.written kw).map Prod.fst).Nodup := by
      rw [← List.append_assoc, List.map_append] at h
      exact (List.nodup_append.1 h).1
    have e := params_written_item it kw acc h1
    rw [Items.params, e, params_written rest _ (by rw [List.append_assoc]; exact h), List.append_assoc]
theorem params_written_item (it : Item V) : ∀ (kw : String) (acc : Dict String (ParRef V)),
    ((acc ++ it.written kw).map Prod.fst).Nodup → it.params kw acc = acc ++ it.written kw := by
  match it with
  | .par p =>
    intro kw acc h
    rw [Item.written] at h ⊢
    rw [Item.params]
    apply Dict.set_of_not_mem
    rw [List.map_append, List.nodup_append] at h
    intro hm
    exact h.2.2 kw hm kw (by simp) rfl
  | .val v => intro kw acc _; rw [Item.params, Item.written]; simp
  | .fn f =>
    intro kw acc h
    rw [Item.written] at h ⊢
    rw [List.map_append] at h
    have hn := List.nodup_append.1 h
    rw [Item.params, C80_registered_partial f hn.2.1]
    exact Dict.update_append_of_fresh hn.2.1 fun k hk hk' => hn.2.2 k hk' k hk rfl
end

/-- C80 is false in general: with the same keyword in two nested Functions only the last parameter
is registered; the first is neither in `params` nor settable as a default, although a call
reads it. -/
theorem C80_lost_false :
    let f : Fn Nat := .mk (fun _ kw => .ok (10 * (Dict.get? kw "u").getD 0 + (Dict.get? kw "v").getD 0)) [] none
      (.cons "u" (.fn (getA (.par ⟨"u_a", none⟩))) (.cons "v" (.fn (getA (.par ⟨"v_a", none⟩))) .nil)) []
    f.params.map (fun kv => kv.2.name) = ["v_a"] ∧ f.written.map (fun kv => kv.2.name) = ["u_a", "v_a"] ∧
    f.call [] [] [("u_a", 3), ("v_a", 4)] = .ok 34 ∧ f.call [] [] [("u_a", 5), ("v_a", 4)] = .ok 54 := by
  decide +kernel

/-! ## C36: pulsar attributes -/

/-- The arguments that are filled from the pulsar. -/
def Filled (attr : String → Option (Val V)) (kwargs : Dict String (Val V)) (n : String) : Prop :=
  Dict.get? kwargs n = none ∧ (attr n).isSome = true

theorem appended_all (attr : String → Option (Val V)) (mask : Option (List Bool)) (kwargs : Dict String (Val V))
    (l : List String) (h : ∀ n ∈ l, Filled attr kwargs n) :
    appended attr mask kwargs l = l.filterMap fun n => (attr n).map (maskAttr mask) := by
  induction l with
  | nil => rfl
  | cons a t ih =>
    obtain ⟨h1, h2⟩ := h a (by simp)
    obtain ⟨x, hx⟩ := Option.isSome_iff_exists.1 h2
    simp [appended, h1, hx, ih fun n hn => h n (by simp [hn])]

theorem appended_none (attr : String → Option (Val V)) (mask : Option (List Bool)) (kwargs : Dict String (Val V))
    (l : List String) (h : ∀ n ∈ l, ¬ Filled attr kwargs n) : appended attr mask kwargs l = [] := by
  induction l with
  | nil => rfl
  | cons a t ih =>
    have h1 := h a (by simp)
    have iht := ih fun n hn => h n (by simp [hn])
    unfold appended
    cases hk : Dict.get? kwargs a with
    | some v => exact iht
    | none =>
      cases ha : attr a with
      | none => exact iht
      | some x => exact absurd ⟨hk, by simp [ha]⟩ h1

theorem appended_append (attr : String → Option (Val V)) (mask : Option (List Bool)) (kwargs : Dict String (Val V))
    (l l' : List String) :
    appended attr mask kwargs (l ++ l') = appended attr mask kwargs l ++ appended attr mask kwargs l' := by
  induction l with
  | nil => rfl
  | cons a t ih =>
    simp only [List.cons_append, appended]
    split
    · rw [ih]; rfl
    · exact ih

theorem get?_append_dict {α : Type} (d e : Dict String α) (k : String) :
    Dict.get? (d ++ e) k = match Dict.get? d k with
      | some v => some v
      | none => Dict.get? e k := by
  induction d with
  | nil => rfl
  | cons kv t ih =>
    obtain ⟨k', v⟩ := kv
    rw [List.cons_append, Dict.get?_cons, Dict.get?_cons, ih]
    split <;> rfl

theorem get?_zip_none {α : Type} (ns : List String) (xs : List α) (k : String) (h : k ∉ ns) :
    Dict.get? (ns.zip xs) k = none := by
  rw [Dict.get?_eq_none_iff]
  intro hm
  obtain ⟨p, hp, rfl⟩ := List.mem_map.1 hm
  exact h (List.of_mem_zip hp).1

theorem get?_zip_filterMap {α : Type} (ns : List String) (g : String → Option α) (hg : ∀ n ∈ ns, (g n).isSome = true)
    (k : String) (hk : k ∈ ns) : Dict.get? (ns.zip (ns.filterMap g)) k = g k := by
  induction ns with
  | nil => simp at hk
  | cons a t ih =>
    obtain ⟨x, hx⟩ := Option.isSome_iff_exists.1 (hg a (by simp))
    rw [List.filterMap_cons, hx]
    simp only [List.zip_cons_cons]
    rw [Dict.get?_cons]
    by_cases he : a = k
    · subst he; simp [hx]
    · rw [if_neg he]
      exact ih (fun n hn => hg n (by simp [hn])) (by simpa [Ne.symm he] using hk)

theorem selectionCall_binds (pre mid post : List String) (defaults kwargs : Dict String (Val V))
    (args : List (Val V)) (attr : String → Option (Val V)) (mask : Option (List Bool))
    (hnd : (pre ++ mid ++ post).Nodup) (hargs : args.length = pre.length)
    (hmid : ∀ n ∈ mid, Filled attr kwargs n) (hpost : ∀ n ∈ post, ¬ Filled attr kwargs n)
    (hgiven : ∀ n ∈ post, (Dict.get? kwargs n).isSome = true ∨ (Dict.get? defaults n).isSome = true)
    (hpre : ∀ n ∈ pre, Dict.get? kwargs n = none)
    (hkn : ∀ kv ∈ kwargs, kv.1 ∈ pre ++ mid ++ post) :
    ∃ b, selectionCall (pre ++ mid ++ post) defaults args kwargs (some attr) mask = .ok b ∧
      (∀ i (hi : i < pre.length), Dict.get? b pre[i] = args[i]?) ∧
      (∀ n ∈ mid, Dict.get? b n = (attr n).map (maskAttr mask)) ∧
      (∀ n ∈ post, Dict.get? b n = match Dict.get? kwargs n with
        | some v => some v
        | none => Dict.get? defaults n) := by
  have hdrop : (pre ++ mid ++ post).drop args.length = mid ++ post := by
    rw [hargs, List.append_assoc, List.drop_left]
  have hg : ∀ n ∈ mid, ((fun n => (attr n).map (maskAttr mask)) n).isSome = true := by
    intro n hn; simpa using (hmid n hn).2
  have hextra : (if args.length < (pre ++ mid ++ post).length then
      appended attr mask kwargs ((pre ++ mid ++ post).drop args.length) else []) =
      mid.filterMap fun n => (attr n).map (maskAttr mask) := by
    split
    · rw [hdrop, appended_append, appended_all attr mask kwargs mid hmid, appended_none attr mask kwargs post hpost,
        List.append_nil]
    · rename_i hlt
      have : mid = [] := by
        rw [hargs] at hlt
        simp only [List.length_append] at hlt
        exact List.length_eq_zero_iff.1 (by omega)
      subst this; rfl
  have hlen : (mid.filterMap fun n => (attr n).map (maskAttr mask)).length = mid.length := by
    have : ∀ l : List String, (∀ n ∈ l, ((attr n).map (maskAttr mask)).isSome = true) →
        (l.filterMap fun n => (attr n).map (maskAttr mask)).length = l.length := by
      intro l
      induction l with
      | nil => intro _; rfl
      | cons a t ih =>
        intro h
        obtain ⟨x, hx⟩ := Option.isSome_iff_exists.1 (h a (by simp))
        rw [List.filterMap_cons, hx]
        simp [ih fun n hn => h n (by simp [hn])]
    exact this mid hg
  have hl2 : (args ++ mid.filterMap fun n => (attr n).map (maskAttr mask)).length = (pre ++ mid).length := by
    simp [hargs, hlen]
  have htake : (pre ++ mid ++ post).take (pre ++ mid).length = pre ++ mid := List.take_left
  have hdrop2 : (pre ++ mid ++ post).drop (pre ++ mid).length = post := List.drop_left
  have hzip : (pre ++ mid ++ post).zip (args ++ mid.filterMap fun n => (attr n).map (maskAttr mask)) =
      pre.zip args ++ mid.zip (mid.filterMap fun n => (attr n).map (maskAttr mask)) := by
    rw [List.append_assoc, List.zip_append hargs.symm]
    congr 1
    have : ∀ (a b : List String) (c : List (Val V)), a.length = c.length → (a ++ b).zip c = a.zip c := by
      intro a
      induction a with
      | nil => intro b c h; cases c with
        | nil => simp
        | cons => simp at h
      | cons x t ih => intro b c h; cases c with
        | nil => simp at h
        | cons y s => simp [ih b s (by simpa using h)]
    exact this mid post _ hlen.symm
  have hnd1 := List.nodup_append.1 hnd
  have hnd2 := List.nodup_append.1 hnd1.1
  let tail : Dict String (Val V) := post.filterMap fun n =>
    match Dict.get? kwargs n with
    | some v => some (n, v)
    | none => (Dict.get? defaults n).map fun v => (n, v)
  have hcall : selectionCall (pre ++ mid ++ post) defaults args kwargs (some attr) mask =
      .ok (pre.zip args ++ mid.zip (mid.filterMap fun n => (attr n).map (maskAttr mask)) ++ tail) := by
    unfold selectionCall
    simp only
    rw [hextra]
    unfold bindCall
    rw [hl2, htake, hdrop2, hzip]
    rw [if_neg (by simp only [List.length_append]; omega), if_neg, if_neg, if_neg]
    · congr 2
      simp only [tail]
      congr 1
      funext n
      cases Dict.get? kwargs n <;> rfl
    · intro h
      obtain ⟨n, hn, h2⟩ := List.any_eq_true.1 h
      rcases hgiven n hn with h3 | h3
      · obtain ⟨x, hx⟩ := Option.isSome_iff_exists.1 h3; simp [hx] at h2
      · obtain ⟨x, hx⟩ := Option.isSome_iff_exists.1 h3; simp [hx] at h2
    · intro h
      obtain ⟨kv, hkv, h2⟩ := List.any_eq_true.1 h
      simp only [decide_eq_true_eq] at h2
      exact h2 (hkn kv hkv)
    · intro h
      obtain ⟨n, hn, h2⟩ := List.any_eq_true.1 h
      rcases List.mem_append.1 hn with hn | hn
      · rw [hpre n hn] at h2; simp at h2
      · rw [(hmid n hn).1] at h2; simp at h2
  refine ⟨_, hcall, ?_, ?_, ?_⟩
  · intro i hi
    rw [List.append_assoc, get?_append_dict]
    have hz : Dict.get? (pre.zip args) pre[i] = args[i]? := by
      have hia : i < args.length := by omega
      rw [List.getElem?_eq_getElem hia]
      apply Dict.get?_of_mem
      · rw [List.map_fst_zip (by omega)]; exact hnd2.1
      · rw [List.mem_iff_getElem]
        refine ⟨i, by simp; omega, by simp⟩
    rw [hz]
    have hia : i < args.length := by omega
    rw [List.getElem?_eq_getElem hia]
  · intro n hn
    rw [List.append_assoc, get?_append_dict, get?_zip_none pre args n fun h => hnd2.2.2 n h n hn rfl]
    simp only
    rw [get?_append_dict, get?_zip_filterMap mid _ hg n hn]
    obtain ⟨x, hx⟩ := Option.isSome_iff_exists.1 (hg n hn)
    simp only at hx
    rw [hx]
  · intro n hn
    rw [get?_append_dict]
    have : Dict.get? (pre.zip args ++ mid.zip (mid.filterMap fun n => (attr n).map (maskAttr mask))) n = none := by
      rw [get?_append_dict, get?_zip_none pre args n fun h => hnd1.2.2 n (by simp [h]) n hn rfl]
      exact get?_zip_none mid _ n fun h => hnd1.2.2 n (by simp [h]) n hn rfl
    rw [this]
    simp only [tail]
    have hpn : post.Nodup := hnd1.2.1
    clear this hcall
    have key : ∀ l : List String, l.Nodup → n ∈ l → (∀ n ∈ l, (Dict.get? kwargs n).isSome = true ∨ (Dict.get? defaults n).isSome = true) →
        Dict.get? (l.filterMap fun n =>
          match Dict.get? kwargs n with
          | some v => some (n, v)
          | none => (Dict.get? defaults n).map fun v => (n, v)) n = match Dict.get? kwargs n with
        | some v => some v
        | none => Dict.get? defaults n := by
      intro l
      induction l with
      | nil => intro _ h; simp at h
      | cons a t ih =>
        intro hnd hm hgv
        have hnd' := List.nodup_cons.1 hnd
        by_cases he : a = n
        · subst he
          rw [List.filterMap_cons]
          cases hk : Dict.get? kwargs a with
          | some v => simp [Dict.get?_cons]
          | none =>
            rcases hgv a (by simp) with h | h
            · rw [hk] at h; simp at h
            · obtain ⟨x, hx⟩ := Option.isSome_iff_exists.1 h
              simp [hx, Dict.get?_cons]
        · have hmt : n ∈ t := by simpa [Ne.symm he] using hm
          have iht := ih hnd'.2 hmt fun n hn => hgv n (by simp [hn])
          rw [List.filterMap_cons]
          cases hk : Dict.get? kwargs a with
          | some v => simp only; rw [Dict.get?_cons, if_neg he]; exact iht
          | none =>
            cases hd : Dict.get? defaults a with
            | some v => simp only [Option.map_some]; rw [Dict.get?_cons, if_neg he]; exact iht
            | none => simp only [Option.map_none]; exact iht
    exact key post hpn hn hgiven

/-- What restricting an attribute to a mask should mean: only arrays of the mask's length change, and
they keep, in order, the entries at which the mask is set. -/
inductive Restricted : Option (List Bool) → Val V → Val V → Prop
  | object (m : Option (List Bool)) (v : V) : Restricted m (.obj v) (.obj v)
  | noMask (xs : List V) : Restricted none (.arr xs) (.arr xs)
  | otherLength (m : List Bool) (xs : List V) (h : m.length ≠ xs.length) : Restricted (some m) (.arr xs) (.arr xs)
  | masked (m : List Bool) (xs : List V) (h : m.length = xs.length) :
      Restricted (some m) (.arr xs)
        (.arr ((List.range xs.length).filterMap fun i => if m[i]? = some true then xs[i]? else none))

theorem applyMask_range (xs : List V) : ∀ m : List Bool, m.length = xs.length →
    applyMask xs m = (List.range xs.length).filterMap fun i => if m[i]? = some true then xs[i]? else none := by
  induction xs with
  | nil => intro m _; simp [applyMask]
  | cons x t ih =>
    intro m h
    cases m with
    | nil => simp at h
    | cons b u =>
      have h' : u.length = t.length := by simpa using h
      have e := ih u h'
      simp only [List.length_cons, List.range_succ_eq_map, List.filterMap_cons, List.filterMap_map]
      unfold applyMask at e ⊢
      cases b <;> simp [e]

theorem maskAttr_restricted (mask : Option (List Bool)) (v : Val V) : Restricted mask v (maskAttr mask v) := by
  cases v with
  | obj v => exact .object mask v
  | arr xs =>
    cases mask with
    | none => exact .noMask xs
    | some m =>
      by_cases h : m.length = xs.length
      · have e : maskAttr (some m) (.arr xs) = .arr (applyMask xs m) := if_pos h
        rw [e, applyMask_range xs m h]
        exact .masked m xs h
      · have e : maskAttr (some m) (.arr xs) = .arr xs := if_neg h
        rw [e]
        exact .otherLength m xs h

/-- C36 (partial): a function `func(names...)` evaluated on a pulsar with some positional arguments,
some keywords and maybe a mask.  Suppose the names to be filled from the pulsar (`mid`) come
directly after the positional ones (`pre`), the remaining ones (`post`) are given as keywords or
have defaults, and no keyword repeats a positional argument or is unknown.  Then the call
succeeds, and every argument gets: its positional value; the pulsar's attribute, restricted by
the mask exactly when it is an array of the mask's length; the keyword; the default.  Missing:
signatures where a name that is given or has a default precedes one that is filled
(`C36_misbound_false`), and arrays that only happen to have the mask's length
(`C36_mask_false`). -/
theorem C36_attributes_partial (pre mid post : List String) (defaults kwargs : Dict String (Val V))
    (args : List (Val V)) (attr : String → Option (Val V)) (mask : Option (List Bool))
    (hnd : (pre ++ mid ++ post).Nodup) (hargs : args.length = pre.length)
    (hmid : ∀ n ∈ mid, Filled attr kwargs n) (hpost : ∀ n ∈ post, ¬ Filled attr kwargs n)
    (hgiven : ∀ n ∈ post, (Dict.get? kwargs n).isSome = true ∨ (Dict.get? defaults n).isSome = true)
    (hpre : ∀ n ∈ pre, Dict.get? kwargs n = none)
    (hkn : ∀ kv ∈ kwargs, kv.1 ∈ pre ++ mid ++ post) :
    ∃ b, selectionCall (pre ++ mid ++ post) defaults args kwargs (some attr) mask = .ok b ∧
      (∀ i (hi : i < pre.length), Dict.get? b pre[i] = args[i]?) ∧
      (∀ n ∈ mid, ∃ v w, attr n = some v ∧ Restricted mask v w ∧ Dict.get? b n = some w) ∧
      (∀ n ∈ post, Dict.get? b n = match Dict.get? kwargs n with
        | some v => some v
        | none => Dict.get? defaults n) := by
  obtain ⟨b, h1, h2, h3, h4⟩ := selectionCall_binds pre mid post defaults kwargs args attr mask hnd hargs hmid hpost
    hgiven hpre hkn
  refine ⟨b, h1, h2, ?_, ?_⟩
  · intro n hn
    obtain ⟨v, hv⟩ := Option.isSome_iff_exists.1 (hmid n hn).2
    exact ⟨v, _, hv, maskAttr_restricted mask v, by rw [h3 n hn, hv]; rfl⟩
  · intro n hn
    rw [h4 n hn]

/-- `createfourierdesignmatrix_red(toas, nmodes=30, Tspan=None, ...)` with `nmodes` given: the
hypotheses hold and the masked TOAs are passed. -/
example :
    (selectionCall ["toas", "nmodes", "Tspan"] [("nmodes", .obj 30), ("Tspan", .obj 0)] [] [("nmodes", .obj 5)]
      (some fun n => if n = "toas" then some (.arr [10, 20, 30, 40]) else none) (some [true, false, false, true])).map
        (fun b => match Dict.get? b "toas", Dict.get? b "nmodes", Dict.get? b "Tspan" with
          | some (.arr xs), some (.obj n), some (.obj t) => (xs, n, t)
          | _, _, _ => ([], 0, 0)) = .ok ([10, 40], 5, 0) := by decide +kernel

/-- C36 is false (1): a name with a default that the pulsar does not have, before a name the pulsar
has, silently receives the latter's attribute, and the latter keeps its default. -/
theorem C36_misbound_false (toas freqs : List V) (d e : Val V) :
    selectionCall ["toas", "nmodes", "freqs"] [("nmodes", d), ("freqs", e)] [] []
      (some fun n => if n = "toas" then some (.arr toas) else if n = "freqs" then some (.arr freqs) else none) none =
    .ok [("toas", .arr toas), ("nmodes", .arr freqs), ("freqs", e)] := by
  rfl

/-- C36 is false (2): a name given as keyword before a name filled from the pulsar raises. -/
theorem C36_keyword_first_false (x : Val V) (toas : List V) :
    selectionCall ["a", "toas"] [] [] [("a", x)]
      (some fun n => if n = "toas" then some (.arr toas) else none) none = .error .typeError := by
  rfl

/-- C36 is false (3): an array that is not per TOA but happens to have as many entries as there are
TOAs is masked too: with three TOAs the sky position loses components. -/
theorem C36_mask_false (x y z : V) :
    selectionCall ["pos"] [] [] [] (some fun n => if n = "pos" then some (.arr [x, y, z]) else none)
      (some [true, false, false]) = .ok [("pos", .arr [x])] := by
  rfl

/-- C36: Functions given for keywords never see the mask of the outer call: they are evaluated on the
whole pulsar. -/
theorem C36_mask_not_nested (f : Fn V) (h : "mask" ∉ f.keys) (kwargs params : Dict String V) (m : V) :
    Item.eval (.fn f) (Dict.set kwargs "mask" m) params = Item.eval (.fn f) kwargs params := by
  have hf : ∀ d : Dict String V, ((Dict.set d "mask" m).filter fun kv => decide (kv.1 ∈ f.keys)) =
      d.filter fun kv => decide (kv.1 ∈ f.keys) := by
    intro d
    induction d with
    | nil => simp [Dict.set, h]
    | cons kv t ih =>
      unfold Dict.set
      split
      · rename_i e
        obtain ⟨k, v⟩ := kv
        simp only at e
        subst e
        simp [h]
      · rw [List.filter_cons, List.filter_cons, ih]
  rw [Item.eval, Item.eval, hf]

/-! ## C81: the `function` decorator -/

/-- C81: calling a decorated function gives its plain result iff all arguments without default are
given and no keyword is a Parameter or Function; otherwise it gives a Function class. -/
theorem C81_decorator (required : List String) (nargs : Nat) (kwargs : List (String × Bool)) (hnd : required.Nodup) :
    decorated required nargs kwargs = .callsThrough ↔
      (∀ i (h : i < required.length), i < nargs ∨ required[i] ∈ kwargs.map Prod.fst) ∧ ∀ kv ∈ kwargs, kv.2 = false := by
  have hgiven : (required.any fun a => decide (a ∉ required.take nargs ++ kwargs.map Prod.fst)) = false ↔
      ∀ i (h : i < required.length), i < nargs ∨ required[i] ∈ kwargs.map Prod.fst := by
    rw [List.any_eq_false]
    constructor
    · intro h i hi
      have := h required[i] (List.getElem_mem hi)
      simp only [decide_eq_true_eq, not_not] at this
      rcases List.mem_append.1 this with h1 | h1
      · left
        obtain ⟨j, hj, he⟩ := List.mem_iff_getElem.1 h1
        rw [List.getElem_take] at he
        have hj' : j < nargs ∧ j < required.length := by rw [List.length_take] at hj; omega
        have := (List.Nodup.getElem_inj_iff hnd).1 he
        omega
      · right; exact h1
    · intro h a ha
      obtain ⟨i, hi, rfl⟩ := List.mem_iff_getElem.1 ha
      simp only [decide_eq_true_eq, not_not]
      rcases h i hi with h1 | h1
      · apply List.mem_append_left
        rw [List.mem_iff_getElem]
        exact ⟨i, by simp; omega, by simp⟩
      · exact List.mem_append_right _ h1
  unfold decorated
  simp only
  by_cases h1 : (required.any fun a => decide (a ∉ required.take nargs ++ kwargs.map Prod.fst)) = true
  · rw [if_pos h1]
    have hn : ¬ (required.any fun a => decide (a ∉ required.take nargs ++ kwargs.map Prod.fst)) = false := by rw [h1]; simp
    simp only [reduceCtorEq, false_iff]
    intro h
    exact hn (hgiven.2 h.1)
  · rw [if_neg h1]
    have h1' := hgiven.1 (by simpa using h1)
    by_cases h2 : (kwargs.any fun kv => kv.2) = true
    · rw [if_pos h2]
      simp only [reduceCtorEq, false_iff]
      intro h
      obtain ⟨kv, hkv, h3⟩ := List.any_eq_true.1 h2
      rw [h.2 kv hkv] at h3
      cases h3
    · rw [if_neg h2]
      simp only [true_iff]
      refine ⟨h1', ?_⟩
      have : (kwargs.any fun kv => kv.2) = false := by simpa using h2
      rw [List.any_eq_false] at this
      intro kv hkv
      simpa using this kv hkv

example : decorated ["f", "log10_A"] 1 [("log10_A", false), ("gamma", false)] = .callsThrough ∧
    decorated ["f", "log10_A"] 0 [("log10_A", true)] = .makesFunction ∧
    decorated ["f", "log10_A"] 2 [("gamma", true)] = .makesFunction := by decide +kernel

/-- The hypotheses of `C36_attributes_partial`: one positional argument, an attribute of the pulsar that is masked, a keyword. -/
example := C36_attributes_partial (V := ℕ) ["x"] ["toas"] ["fmin"] [("fmin", .obj 7)] [] [.obj 3]
  (fun n => if n = "toas" then some (.arr [10, 20, 30]) else none) (some [true, false, true]) (by decide) rfl (by simp [Filled, Dict.get?]) (by simp [Filled])
  (by simp [Dict.get?]) (by simp [Dict.get?]) (by simp)

end Verif.Fun
