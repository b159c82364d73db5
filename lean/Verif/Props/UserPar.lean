import Verif.Model.UserPar
import Verif.Lemmas.Dict

/-!
# Property C130: the methods of a parameter see the same hyperparameters
-/

namespace Verif.UserPar

open Verif Verif.Fun
open Verif.Params (joinNames)

variable {V : Type}

/-! ## Specification -/

/-- The value of a hyperparameter: that of `params` under its name, which for a class is `name_fname_kw`, then that of a Constant, and a plain
value as it is. -/
def Arg.look (name fname kw : String) (params : Dict String V) : Arg V → Option V
  | .parCls => Dict.get? params (joinNames [name, fname, kw])
  | .constCls v => some ((Dict.get? params (joinNames [name, fname, kw])).getD v)
  | .inst p => (Dict.get? params p.name).or p.const
  | .val v => some v

/-- The keywords with the values of the hyperparameters; those without a value are left out. -/
def seen (name fname : String) (kwargs : Dict String (Arg V)) (params : Dict String V) : Dict String V :=
  kwargs.filterMap fun ka => (ka.2.look name fname ka.1 params).map fun v => (ka.1, v)

/-! ## The calls -/

/-- The parameter of a keyword. -/
def Arg.par (name fname kw : String) : Arg V → Option (ParRef V)
  | .parCls => some ⟨joinNames [name, fname, kw], none⟩
  | .constCls v => some ⟨joinNames [name, fname, kw], some v⟩
  | .inst p => some p
  | .val _ => none

theorem keys_items (name fname : String) (K : Dict String (Arg V)) : (items name fname K).keys = K.map Prod.fst := by
  induction K with
  | nil => rfl
  | cons ka t ih => simp [items, Items.keys, ih]

theorem get_params (name fname : String) (K : Dict String (Arg V)) : ∀ (acc : Dict String (ParRef V)) (k : String), (K.map Prod.fst).Nodup →
    Dict.get? ((items name fname K).params acc) k = ((Dict.get? K k).bind fun a => a.par name fname k).or (Dict.get? acc k) := by
  induction K with
  | nil => intro acc k _; simp [items, Items.params]
  | cons ka t ih =>
    intro acc k hnd
    obtain ⟨kw, a⟩ := ka
    rw [List.map_cons, List.nodup_cons] at hnd
    rw [items, Items.params, ih _ _ hnd.2, Dict.get?_cons]
    by_cases hk : kw = k
    · subst hk
      rw [if_pos rfl]
      have hn : Dict.get? t kw = none := (Dict.get?_eq_none_iff _ _).2 hnd.1
      rw [hn]
      cases a <;> simp [Arg.item, Item.params, Arg.par, Dict.get?_set_self]
    · rw [if_neg hk]
      congr 1
      cases a <;> simp [Arg.item, Item.params, Dict.get?_set_ne _ _ hk]

theorem get_defaults (name fname : String) (K : Dict String (Arg V)) (k : String) (hnd : (K.map Prod.fst).Nodup) (v : V) (h : (k, Arg.val v) ∈ K) :
    Dict.get? (items name fname K).defaults k = some v := by
  induction K with
  | nil => cases h
  | cons ka t ih =>
    obtain ⟨kw, a⟩ := ka
    rw [List.map_cons, List.nodup_cons] at hnd
    rcases List.mem_cons.1 h with h | h
    · cases h
      simp [items, Arg.item, Items.defaults, Dict.get?_cons]
    · have hne : kw ≠ k := by
        rintro rfl
        exact hnd.1 (List.mem_map.2 ⟨_, h, rfl⟩)
      have := ih hnd.2 h
      cases a <;> simp [items, Arg.item, Items.defaults, Dict.get?_cons, hne, this]

theorem get_mem {α : Type} {K : Dict String α} {k : String} {a : α} (hnd : (K.map Prod.fst).Nodup) (h : (k, a) ∈ K) : Dict.get? K k = some a := by
  induction K with
  | nil => cases h
  | cons ka t ih =>
    obtain ⟨kw, b⟩ := ka
    rw [List.map_cons, List.nodup_cons] at hnd
    rw [Dict.get?_cons]
    rcases List.mem_cons.1 h with h | h
    · cases h
      simp
    · have hne : kw ≠ k := by
        rintro rfl
        exact hnd.1 (List.mem_map.2 ⟨_, h, rfl⟩)
      rw [if_neg hne, ih hnd.2 h]

theorem seen_keys (name fname : String) (K : Dict String (Arg V)) (params : Dict String V) :
    ∀ k ∈ (seen name fname K params).map Prod.fst, k ∈ K.map Prod.fst := by
  intro k hk
  obtain ⟨kv, h1, rfl⟩ := List.mem_map.1 hk
  obtain ⟨ka, h2, h3⟩ := List.mem_filterMap.1 h1
  obtain ⟨v, -, rfl⟩ := Option.map_eq_some_iff.1 h3
  exact List.mem_map.2 ⟨ka, h2, rfl⟩

theorem augment_seen (name fname : String) (pars : Dict String (ParRef V)) (dfl params : Dict String V) (K : Dict String (Arg V)) :
    ∀ kw : Dict String V, (K.map Prod.fst).Nodup → (∀ k ∈ K.map Prod.fst, k ∉ kw.map Prod.fst) →
    (∀ k a, (k, a) ∈ K → Dict.get? pars k = a.par name fname k) → (∀ k v, (k, Arg.val v) ∈ K → Dict.get? dfl k = some v) →
    (items name fname K).augment pars dfl kw params = .ok (kw ++ seen name fname K params) := by
  induction K with
  | nil => intro kw _ _ _ _; simp [items, Items.augment, seen]
  | cons ka t ih =>
    intro kw hnd hdis hp hv
    obtain ⟨k, a⟩ := ka
    have hnd' := (List.nodup_cons.1 (by simpa using hnd) : k ∉ t.map Prod.fst ∧ (t.map Prod.fst).Nodup)
    have hk : k ∉ kw.map Prod.fst := hdis k (by simp)
    have hkn : Dict.get? kw k = none := (Dict.get?_eq_none_iff _ _).2 hk
    have hrest : ∀ v : V, ∀ k' ∈ t.map Prod.fst, k' ∉ (kw ++ [(k, v)]).map Prod.fst := by
      intro v k' hk' hmem
      rw [List.map_append, List.mem_append] at hmem
      rcases hmem with hmem | hmem
      · exact hdis k' (by simp only [List.map_cons, List.mem_cons]; exact .inr hk') hmem
      · obtain rfl : k' = k := by simpa using hmem
        exact hnd'.1 hk'
    have hrest' : ∀ k' ∈ t.map Prod.fst, k' ∉ kw.map Prod.fst := fun k' hk' => hdis k' (by simp only [List.map_cons, List.mem_cons]; exact .inr hk')
    have hp' : ∀ k a, (k, a) ∈ t → Dict.get? pars k = a.par name fname k := fun k a h => hp k a (List.mem_cons_of_mem _ h)
    have hv' : ∀ k v, (k, Arg.val v) ∈ t → Dict.get? dfl k = some v := fun k v h => hv k v (List.mem_cons_of_mem _ h)
    have hset : ∀ v : V, Dict.set kw k v = kw ++ [(k, v)] := fun v => Dict.set_of_not_mem v hk
    have key : ∀ o : Option V, (items name fname t).augment pars dfl (setOpt kw k o) params =
        .ok (kw ++ ((o.map fun v => (k, v)).toList ++ seen name fname t params)) := by
      intro o
      cases o with
      | none => simpa [setOpt] using ih kw hnd'.2 hrest' hp' hv'
      | some v => simpa [setOpt, hset] using ih (kw ++ [(k, v)]) hnd'.2 (hrest v) hp' hv'
    have hs : seen name fname ((k, a) :: t) params = ((a.look name fname k params).map fun v => (k, v)).toList ++ seen name fname t params := by
      unfold seen
      rw [List.filterMap_cons]
      cases a.look name fname k params <;> rfl
    have hpk := hp k a (by simp)
    rw [items, Items.augment, hkn, hs]
    simp only [Option.isSome_none, Bool.false_eq_true, if_false, hpk]
    cases a with
    | parCls =>
      simp only [Arg.par]
      rw [key]
      simp only [parValue, Arg.look]
      cases Dict.get? params (joinNames [name, fname, k]) <;> rfl
    | constCls v =>
      simp only [Arg.par]
      rw [key]
      simp only [parValue, Arg.look]
      cases Dict.get? params (joinNames [name, fname, k]) <;> rfl
    | inst p =>
      simp only [Arg.par]
      rw [key]
      simp only [parValue, Arg.look]
      cases Dict.get? params p.name <;> rfl
    | val v =>
      simp only [Arg.par, hv k v (by simp)]
      exact key (some v)

theorem call_make (c : FnCls V) (name : String) (g : Body V) (args : List V) (extra params : Dict String V) (hnd : (c.kwargs.map Prod.fst).Nodup)
    (hdis : ∀ k ∈ c.kwargs.map Prod.fst, k ∉ extra.map Prod.fst) (hex : ∀ k ∈ extra.map Prod.fst, k = "size") :
    (c.make name).callWith g args extra params = g args (extra ++ seen name c.fname c.kwargs params) := by
  have h := augment_seen name c.fname ((items name c.fname c.kwargs).params []) (Dict.update (items name c.fname c.kwargs).defaults []) params c.kwargs
    extra hnd hdis (fun k a hm => by rw [get_params _ _ _ _ _ hnd, get_mem hnd hm]; simp) fun k v hm => by
      rw [show Dict.update (items name c.fname c.kwargs).defaults [] = (items name c.fname c.kwargs).defaults from rfl]
      exact get_defaults _ _ _ _ hnd v hm
  rw [FnCls.make, Fn.callWith, Fn.call]
  simp only [h]
  simp only [addPsr]
  congr 1
  refine List.filter_eq_self.2 fun kv hkv => ?_
  simp only [allowed, decide_eq_true_eq]
  rcases List.mem_append.1 hkv with hkv | hkv
  · right; right
    rw [hex kv.1 (List.mem_map.2 ⟨kv, hkv, rfl⟩)]
    simp
  · left
    rw [keys_items]
    exact seen_keys _ _ _ _ _ (List.mem_map.2 ⟨kv, hkv, rfl⟩)

theorem call_make' (c : FnCls V) (name : String) (args : List V) (params : Dict String V) (hnd : (c.kwargs.map Prod.fst).Nodup) :
    (c.make name).call args [] params = c.body args (seen name c.fname c.kwargs params) :=
  call_make c name c.body args [] params hnd (by simp) (by simp)

/-! ## The methods -/

/-- **C130**: the density, its logarithm, the sampler and the quantile function of a parameter are given the same values of the
hyperparameters, those of `params` under the names `name_keyword`; the sampler is given the size in addition. -/
theorem C130_methods (o : Ops V) (c : ParCls V) (f g : FnCls V) (s : Body V) (hf : c.prior = some f) (hg : c.ppf = some g) (hs : c.sampler = some s)
    (hnd : (f.kwargs.map Prod.fst).Nodup) (hsize : "size" ∉ f.kwargs.map Prod.fst) (hsame : g.kwargs = f.kwargs ∧ g.fname = f.fname)
    (name : String) (params : Dict String V) :
    ∃ p D, c.make name = .ok p ∧ D = seen name f.fname f.kwargs params ∧
      (∀ v, p.getPdf o (some v) [] (some params) = (f.body [v] D).map fun r => if c.size.isNone then r else o.prod r) ∧
      (∀ v, p.getLogpdf o (some v) [] (some params) = (f.body [v] D).map fun r => if c.size.isNone then o.log r else o.sum (o.log r)) ∧
      p.sample o [] (some params) = s [] (("size", (c.size.map o.int).getD o.pyNone) :: D) ∧
      ∀ v, p.getPpf o (some v) [] (some params) = g.body [v] D := by
  obtain ⟨prior, logprior, sampler, ppf, size⟩ := c
  cases hf
  cases hg
  cases hs
  refine ⟨_, _, rfl, rfl, fun v => ?_, fun v => ?_, ?_, fun v => ?_⟩
  · simp only [Inst.getPdf, Inst.value, Dens.fn, Option.getD_some, call_make' f name _ _ hnd]
    cases f.body [v] (seen name f.fname f.kwargs params) <;> rfl
  · simp only [Inst.getLogpdf, Inst.value, Dens.fn, Option.getD_some, call_make' f name _ _ hnd]
    cases f.body [v] (seen name f.fname f.kwargs params) <;> rfl
  · simp only [Inst.sample, Dict.get?_nil, Option.isSome_none, Bool.false_eq_true, if_false, Dens.fn, Option.getD_some]
    exact call_make f name s [] [("size", (size.map o.int).getD o.pyNone)] params hnd (by simpa using fun k a h e => hsize (by
      subst e
      exact List.mem_map.2 ⟨_, h, rfl⟩)) (by simp)
  · simp only [Inst.getPpf, Option.map_some, Inst.value, Option.getD_some]
    rw [call_make' g name _ _ (hsame.1 ▸ hnd), hsame.1, hsame.2]

/-- C130: the same with a log-density; it is used only if no density is given. -/
theorem C130_logprior (o : Ops V) (c : ParCls V) (f : FnCls V) (hp : c.prior = none) (hf : c.logprior = some f) (s : Body V)
    (hs : c.sampler = some s) (hnd : (f.kwargs.map Prod.fst).Nodup) (hsize : "size" ∉ f.kwargs.map Prod.fst) (name : String) (params : Dict String V) :
    ∃ p D, c.make name = .ok p ∧ D = seen name f.fname f.kwargs params ∧
      (∀ v, p.getPdf o (some v) [] (some params) = (f.body [v] D).map fun r => if c.size.isNone then o.exp r else o.prod (o.exp r)) ∧
      (∀ v, p.getLogpdf o (some v) [] (some params) = (f.body [v] D).map fun r => if c.size.isNone then r else o.sum r) ∧
      p.sample o [] (some params) = s [] (("size", (c.size.map o.int).getD o.pyNone) :: D) := by
  obtain ⟨prior, logprior, sampler, ppf, size⟩ := c
  cases hp
  cases hf
  cases hs
  refine ⟨_, _, rfl, rfl, fun v => ?_, fun v => ?_, ?_⟩
  · simp only [Inst.getPdf, Inst.value, Dens.fn, Option.getD_some, call_make' f name _ _ hnd]
    cases f.body [v] (seen name f.fname f.kwargs params) <;> rfl
  · simp only [Inst.getLogpdf, Inst.value, Dens.fn, Option.getD_some, call_make' f name _ _ hnd]
    cases f.body [v] (seen name f.fname f.kwargs params) <;> rfl
  · simp only [Inst.sample, Dict.get?_nil, Option.isSome_none, Bool.false_eq_true, if_false, Dens.fn, Option.getD_some]
    exact call_make f name s [] [("size", (size.map o.int).getD o.pyNone)] params hnd (by simpa using fun k a h e => hsize (by
      subst e
      exact List.mem_map.2 ⟨_, h, rfl⟩)) (by simp)

/-- C130: coefficients of a Gaussian process are a vector whose log-density is the sum of what the given log-density returns; they have neither sampler
nor quantile function. -/
theorem C130_coefficients (o : Ops V) (f : FnCls V) (size : Nat) (hnd : (f.kwargs.map Prod.fst).Nodup) (name : String) (params : Dict String V) :
    ∃ p, (gpCoefficients f size).make name = .ok p ∧ p.name = name ∧
      (∀ v, p.getLogpdf o (some v) [] (some params) = (f.body [v] (seen name f.fname f.kwargs params)).map o.sum) ∧
      (∀ v, p.getPdf o (some v) [] (some params) = (f.body [v] (seen name f.fname f.kwargs params)).map fun r => o.prod (o.exp r)) ∧
      (∀ kwargs ps, p.sample o kwargs ps = .error .attributeError) ∧ ∀ v kwargs ps, p.getPpf o v kwargs ps = .error .notImplementedError := by
  refine ⟨_, rfl, rfl, fun v => ?_, fun v => ?_, fun kwargs ps => ?_, fun v kwargs ps => ?_⟩
  · simp only [Inst.getLogpdf, Inst.value, Dens.fn, Option.getD_some, call_make' f name _ _ hnd]
    cases f.body [v] (seen name f.fname f.kwargs params) <;> rfl
  · simp only [Inst.getPdf, Inst.value, Dens.fn, Option.getD_some, call_make' f name _ _ hnd]
    cases f.body [v] (seen name f.fname f.kwargs params) <;> rfl
  · rfl
  · rfl

/-- C130: a class without density cannot be named; if both are given the log-density is never used. -/
theorem C130_density (c : ParCls V) (name : String) : ((∃ e, c.make name = .error e) ↔ c.prior = none ∧ c.logprior = none) ∧
    (c.prior = none → c.logprior = none → c.make name = .error .attributeError) ∧
    ∀ f, c.prior = some f → ∀ l, ({ c with logprior := l } : ParCls V).make name = c.make name := by
  obtain ⟨prior, logprior, sampler, ppf, size⟩ := c
  refine ⟨?_, ?_, ?_⟩
  · cases prior <;> cases logprior <;> simp [ParCls.make]
  · rintro rfl rfl
    rfl
  · rintro f rfl l
    rfl

/-- C130: without a value the methods take that of `params` under the name of the parameter; a value that is given goes before. -/
theorem C130_value (o : Ops V) (p : Inst V) (kwargs params : Dict String V) :
    (∀ v, Dict.get? params p.name = some v → p.getPdf o none kwargs (some params) = p.getPdf o (some v) kwargs (some params) ∧
      p.getLogpdf o none kwargs (some params) = p.getLogpdf o (some v) kwargs (some params) ∧
      p.getPpf o none kwargs (some params) = p.getPpf o (some v) kwargs (some params)) ∧
    (Dict.get? params p.name = none → p.getPdf o none kwargs (some params) = .error .keyError ∧
      p.getLogpdf o none kwargs (some params) = .error .keyError ∧ ∀ f, p.ppf = some f → p.getPpf o none kwargs (some params) = .error .keyError) := by
  refine ⟨fun v h => ⟨?_, ?_, ?_⟩, fun h => ⟨?_, ?_, fun f hf => ?_⟩⟩ <;>
    simp only [Inst.getPdf, Inst.getLogpdf, Inst.getPpf, Inst.value, h, *]

/-- C130: what a class does not have is refused, the density is there nevertheless. -/
theorem C130_absent (o : Ops V) (c : ParCls V) (name : String) (p : Inst V) (h : c.make name = .ok p) :
    (c.sampler = none → ∀ kwargs params, p.sample o kwargs params = .error .attributeError) ∧
    (c.ppf = none → ∀ value kwargs params, p.getPpf o value kwargs params = .error .notImplementedError) := by
  have hp : p.sampler = c.sampler ∧ p.ppf = c.ppf.map fun f => f.make name := by
    unfold ParCls.make at h
    split at h
    · cases h; exact ⟨rfl, rfl⟩
    · split at h
      · cases h; exact ⟨rfl, rfl⟩
      · cases h
  refine ⟨fun hs kwargs params => ?_, fun hs value kwargs params => ?_⟩
  · rw [Inst.sample, hp.1, hs]
  · rw [Inst.getPpf, hp.2, hs]
    rfl

theorem seen_congr (name fname : String) (K : Dict String (Arg V)) (d d' : Dict String V)
    (h : ∀ k a, (k, a) ∈ K → ∀ q, a.par name fname k = some q → Dict.get? d q.name = Dict.get? d' q.name) :
    seen name fname K d = seen name fname K d' := by
  unfold seen
  refine List.filterMap_congr fun ka hka => ?_
  obtain ⟨k, a⟩ := ka
  have := h k a hka
  cases a with
  | parCls => simp only [Arg.look, this _ rfl]
  | constCls v => simp only [Arg.look, this _ rfl]
  | inst p => simp only [Arg.look, this _ rfl]
  | val v => rfl

/-- C130: what is given in `params` for other parameters does not matter. -/
theorem C130_others (o : Ops V) (c : ParCls V) (f : FnCls V) (hf : c.prior = some f) (hnd : (f.kwargs.map Prod.fst).Nodup) (name : String)
    (p : Inst V) (hp : c.make name = .ok p) (d d' : Dict String V)
    (h : ∀ k a, (k, a) ∈ f.kwargs → ∀ q, a.par name f.fname k = some q → Dict.get? d q.name = Dict.get? d' q.name) (v : V) :
    p.getPdf o (some v) [] (some d) = p.getPdf o (some v) [] (some d') ∧ p.getLogpdf o (some v) [] (some d) = p.getLogpdf o (some v) [] (some d') := by
  obtain ⟨prior, logprior, sampler, ppf, size⟩ := c
  cases hf
  cases hp
  simp only [Inst.getPdf, Inst.getLogpdf, Inst.value, Dens.fn, Option.getD_some, call_make' f name _ _ hnd, seen_congr name f.fname f.kwargs d d' h, and_self]

/-! ## The documented sampler -/

theorem get_filterMap (names : List String) (g : String → Option V) (F : String → Option (String × V)) (hF : ∀ n, F n = (g n).map fun v => (n, v))
    (k : String) (hk : k ∈ names) : Dict.get? (names.filterMap F) k = g k := by
  have key : ∀ l : List String, Dict.get? (l.filterMap F) k = if k ∈ l then g k else none := by
    intro l
    induction l with
    | nil => rfl
    | cons n t ih =>
      rw [List.filterMap_cons, hF]
      by_cases h : n = k
      · subst h
        cases hg : g n with
        | none => simp [ih, hg]
        | some v => simp [Dict.get?_cons]
      · have h' : ¬ k = n := fun e => h e.symm
        cases hg : g n with
        | none => simp [ih, h']
        | some v => simp [Dict.get?_cons, h, h', ih]
  rw [key, if_pos hk]

theorem seen_get (name fname : String) (params : Dict String V) (K : Dict String (Arg V)) (hnd : (K.map Prod.fst).Nodup) (k : String) (a : Arg V)
    (h : (k, a) ∈ K) : Dict.get? (seen name fname K params) k = a.look name fname k params := by
  induction K with
  | nil => cases h
  | cons ka t ih =>
    obtain ⟨kw, b⟩ := ka
    rw [List.map_cons, List.nodup_cons] at hnd
    have hs : seen name fname ((kw, b) :: t) params = ((b.look name fname kw params).map fun v => (kw, v)).toList ++ seen name fname t params := by
      unfold seen
      rw [List.filterMap_cons]
      cases b.look name fname kw params <;> rfl
    rw [hs]
    rcases List.mem_cons.1 h with h | h
    · cases h
      cases hl : a.look name fname k params with
      | none => simpa using (Dict.get?_eq_none_iff _ _).2 fun hm => hnd.1 (seen_keys _ _ _ _ _ hm)
      | some v => simp [Dict.get?_cons]
    · have hne : kw ≠ k := by
        rintro rfl
        exact hnd.1 (List.mem_map.2 ⟨_, h, rfl⟩)
      cases b.look name fname kw params with
      | none => simpa using ih hnd.2 h
      | some v => simpa [Dict.get?_cons, hne] using ih hnd.2 h

/-- C130, in part: a sampler that has an argument for each hyperparameter and for `size` is called with them. -/
theorem C130_sampler_partial (o : Ops V) (c : ParCls V) (f : FnCls V) (hf : c.prior = some f) (names : List String) (defaults : Dict String V)
    (b : Dict String V → Except PyErr V) (hs : c.sampler = some (pyFun names defaults b)) (hnd : (f.kwargs.map Prod.fst).Nodup)
    (hsize : "size" ∉ f.kwargs.map Prod.fst) (hnames : ∀ k, k ∈ names ↔ k = "size" ∨ k ∈ f.kwargs.map Prod.fst) (name : String)
    (params : Dict String V) (hall : ∀ k a, (k, a) ∈ f.kwargs → (a.look name f.fname k params).isSome) :
    ∃ p, c.make name = .ok p ∧ ∃ D, p.sample o [] (some params) = b D ∧ Dict.get? D "size" = some ((c.size.map o.int).getD o.pyNone) ∧
      ∀ k a, (k, a) ∈ f.kwargs → Dict.get? D k = a.look name f.fname k params := by
  obtain ⟨prior, logprior, sampler, ppf, size⟩ := c
  cases hf
  cases hs
  refine ⟨_, rfl, ?_⟩
  simp only [Inst.sample, Dict.get?_nil, Option.isSome_none, Bool.false_eq_true, if_false, Dens.fn, Option.getD_some]
  rw [call_make f name _ [] [("size", (size.map o.int).getD o.pyNone)] params hnd (by simpa using fun k a h e => hsize (by
      subst e
      exact List.mem_map.2 ⟨_, h, rfl⟩)) (by simp)]
  set kw : Dict String V := [("size", (size.map o.int).getD o.pyNone)] ++ seen name f.fname f.kwargs params with hkw
  have h1 : Dict.get? kw "size" = some ((size.map o.int).getD o.pyNone) := by simp [hkw, Dict.get?_cons]
  have h2 : ∀ k a, (k, a) ∈ f.kwargs → Dict.get? kw k = a.look name f.fname k params := by
    intro k a h
    have hne : "size" ≠ k := by
      rintro rfl
      exact hsize (List.mem_map.2 ⟨_, h, rfl⟩)
    rw [← seen_get name f.fname params f.kwargs hnd k a h, hkw, List.singleton_append, Dict.get?_cons, if_neg hne]
  have h3 : ∀ n ∈ names, (Dict.get? kw n).isSome := by
    intro n hn
    rcases (hnames n).1 hn with rfl | hn
    · rw [h1]
      rfl
    · obtain ⟨ka, hka, rfl⟩ := List.mem_map.1 hn
      rw [h2 ka.1 ka.2 hka]
      exact hall ka.1 ka.2 hka
  have h4 : ∀ kv ∈ kw, kv.1 ∈ names := by
    intro kv hkv
    refine (hnames _).2 ?_
    rcases List.mem_append.1 hkv with hkv | hkv
    · left
      obtain rfl : kv = ("size", (size.map o.int).getD o.pyNone) := by simpa using hkv
      rfl
    · exact .inr (seen_keys _ _ _ _ _ (List.mem_map.2 ⟨kv, hkv, rfl⟩))
  have h5 : bindCall names defaults [] kw = .ok (names.filterMap fun n =>
      match Dict.get? kw n with
      | some v => some (n, v)
      | none => (Dict.get? defaults n).map fun v => (n, v)) := by
    have e1 : (kw.any fun kv => decide (kv.1 ∉ names)) = false := by
      rw [List.any_eq_false]
      intro kv hkv
      simpa using h4 kv hkv
    have e2 : ((names.drop 0).any fun n => (Dict.get? kw n).isNone && (Dict.get? defaults n).isNone) = false := by
      rw [List.any_eq_false]
      intro n hn
      have := h3 n hn
      rw [Option.isSome_iff_ne_none] at this
      simp [this]
    unfold bindCall
    rw [if_neg (by simp), if_neg (by simp), if_neg (by rw [e1]; simp), if_neg (by rw [List.length_nil, e2]; simp), List.zip_nil_right]
    rfl
  refine ⟨_, by rw [pyFun, h5], ?_, ?_⟩
  · rw [get_filterMap names (fun n => (Dict.get? kw n).or (Dict.get? defaults n)) _ (fun n => by cases Dict.get? kw n <;> rfl) _
      ((hnames _).2 (.inl rfl)), h1]
    rfl
  · intro k a h
    rw [get_filterMap names (fun n => (Dict.get? kw n).or (Dict.get? defaults n)) _ (fun n => by cases Dict.get? kw n <;> rfl) _
      ((hnames _).2 (.inr (List.mem_map.2 ⟨_, h, rfl⟩)))]
    have := hall k a h
    rw [h2 k a h]
    obtain ⟨v, hv⟩ := Option.isSome_iff_exists.1 this
    rw [hv]
    rfl

/-- C130 is false of a sampler as it is documented, "a function with the same parameters as `prior`": a function without
an argument called `size` cannot be sampled from. -/
theorem C130_sampler_false (o : Ops V) (c : ParCls V) (f : FnCls V) (hf : c.prior = some f) (names : List String) (defaults : Dict String V)
    (b : Dict String V → Except PyErr V) (hs : c.sampler = some (pyFun names defaults b)) (hnd : (f.kwargs.map Prod.fst).Nodup)
    (hsize : "size" ∉ f.kwargs.map Prod.fst) (hnames : "size" ∉ names) (name : String) (params : Dict String V) :
    ∃ p, c.make name = .ok p ∧ p.sample o [] (some params) = .error .typeError := by
  obtain ⟨prior, logprior, sampler, ppf, size⟩ := c
  cases hf
  cases hs
  refine ⟨_, rfl, ?_⟩
  simp only [Inst.sample, Dict.get?_nil, Option.isSome_none, Bool.false_eq_true, if_false, Dens.fn, Option.getD_some]
  rw [call_make f name _ [] [("size", (size.map o.int).getD o.pyNone)] params hnd (by simpa using fun k a h e => hsize (by
      subst e
      exact List.mem_map.2 ⟨_, h, rfl⟩)) (by simp)]
  simp [pyFun, bindCall, hnames]

/-! ## Cases meeting the hypotheses -/

/-- Numbers and `None`. -/
abbrev exV := Option Int

/-- `log` and `exp` replaced by shifts. -/
def exOps : Ops exV := ⟨fun v => v.map (· - 100), fun v => v.map (· + 100), id, id, none, fun n => some n⟩

/-- A density `100 value + 10 mu + sigma`, `mu` a Parameter class and `sigma` a plain value. -/
def exPrior : FnCls exV := ⟨fun args kw => .ok (do
    let v ← (← args.head?)
    let m ← (← Dict.get? kw "mu")
    let s ← (← Dict.get? kw "sigma")
    some (100 * v + 10 * m + s)), ["value", "mu", "sigma"], "", [("mu", .parCls), ("sigma", .val (some 3))]⟩

/-- A sampler of the values `mu + sigma`. -/
def exBody : Dict String exV → Except PyErr exV := fun kw => .ok (do
    let m ← (← Dict.get? kw "mu")
    let s ← (← Dict.get? kw "sigma")
    some (m + s))

/-- The class. -/
def exCls (names : List String) : ParCls exV := { prior := some exPrior, sampler := some (pyFun names [] exBody), ppf := some exPrior }

example : seen "x" "" exPrior.kwargs [("x", some 7), ("x_mu", some 2)] = [("mu", some 2), ("sigma", some 3)] := by decide

example : ∃ p, (exCls ["mu", "sigma", "size"]).make "x" = .ok p ∧ p.getPdf exOps none [] (some [("x", some 7), ("x_mu", some 2)]) = .ok (some 723) ∧
    p.sample exOps [] (some [("x_mu", some 2)]) = .ok (some 5) ∧ p.getPpf exOps (some (some 1)) [] (some [("x_mu", some 2)]) = .ok (some 123) :=
  ⟨_, rfl, by decide, by decide, by decide⟩

/-- Hypotheses of `C130_methods`. -/
example := C130_methods exOps (exCls ["mu", "sigma", "size"]) exPrior exPrior (pyFun ["mu", "sigma", "size"] [] exBody) rfl rfl rfl (by decide)
  (by decide) ⟨rfl, rfl⟩ "x" [("x_mu", some 2)]

/-- Hypotheses of `C130_logprior`. -/
example := C130_logprior exOps { logprior := some exPrior, sampler := some (pyFun ["mu", "sigma", "size"] [] exBody) } exPrior rfl rfl _ rfl (by decide)
  (by decide) "x" [("x_mu", some 2)]

/-- Hypotheses of `C130_sampler_partial`. -/
example := C130_sampler_partial exOps (exCls ["mu", "sigma", "size"]) exPrior rfl ["mu", "sigma", "size"] [] exBody rfl (by decide) (by decide)
  (by simp [exPrior]; tauto) "x" [("x_mu", some 2)] (by
    intro k a h
    have : k = "mu" ∧ a = .parCls ∨ k = "sigma" ∧ a = .val (some 3) := by simpa [exPrior] using h
    rcases this with ⟨rfl, rfl⟩ | ⟨rfl, rfl⟩ <;> decide)

/-- A sampler with the parameters of the prior. -/
example : ∃ p, (exCls ["mu", "sigma"]).make "x" = .ok p ∧ p.sample exOps [] (some [("x_mu", some 2)]) = .error .typeError :=
  C130_sampler_false exOps (exCls ["mu", "sigma"]) exPrior rfl ["mu", "sigma"] [] exBody rfl (by decide) (by decide) (by decide) "x" _

/-- Coefficients of a Gaussian process have neither sampler nor quantile function. -/
example (p : Inst exV) (h : (gpCoefficients exPrior 4).make "x" = .ok p) : p.sample exOps [] (some [("x_mu", some 2)]) = .error .attributeError ∧
    p.getPpf exOps none [] none = .error .notImplementedError :=
  ⟨(C130_absent exOps _ "x" p h).1 rfl _ _, (C130_absent exOps _ "x" p h).2 rfl _ _ _⟩

example := C130_coefficients exOps exPrior 4 (by decide) "x" [("x_mu", some 2)]

/-- Hypotheses of `C130_others`: a value of another parameter is different. -/
example := C130_others exOps (exCls ["mu", "sigma", "size"]) exPrior rfl (by decide) "x" _ rfl [("x_mu", some 2), ("y", some 3)] [("x_mu", some 2), ("y", some 4)] (by
  intro k a h q hq
  have : k = "mu" ∧ a = .parCls ∨ k = "sigma" ∧ a = .val (some 3) := by simpa [exPrior] using h
  rcases this with ⟨rfl, rfl⟩ | ⟨rfl, rfl⟩
  · cases hq
    decide
  · cases hq) (some 7)

example := (C130_value exOps ((exCls ["mu", "sigma", "size"]).make "x" |>.toOption.get rfl) [] [("x", some 7), ("x_mu", some 2)]).1 (some 7) rfl

end Verif.UserPar
