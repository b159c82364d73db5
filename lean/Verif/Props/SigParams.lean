import Verif.Model.SigParams
import Verif.Props.Function
import Verif.Props.Cache

/-!
# C124: signals read the parameters they list
-/

namespace Verif.SigParams

open Verif Fun Cache

variable {K V : Type}

/-! ## What a Function reads -/

/-- The two dictionaries have the same entries for these names. -/
def Same {α : Type} (names : List String) (p p' : Dict String α) : Prop := ∀ n ∈ names, Dict.get? p n = Dict.get? p' n

theorem mem_set {α : Type} (d : Dict String α) (k : String) (v : α) : ∀ kv ∈ Dict.set d k v, kv ∈ d ∨ kv = (k, v) := by
  induction d with
  | nil => intro kv h; simpa [Dict.set] using h
  | cons a t ih =>
    intro kv h
    rw [Dict.set] at h
    split at h
    · rename_i hk
      rcases List.mem_cons.1 h with h | h
      · exact .inr (hk ▸ h)
      · exact .inl (List.mem_cons_of_mem _ h)
    · rcases List.mem_cons.1 h with h | h
      · exact .inl (h ▸ List.mem_cons_self)
      · rcases ih kv h with h | h
        · exact .inl (List.mem_cons_of_mem _ h)
        · exact .inr h

theorem mem_update {α : Type} (e : List (String × α)) : ∀ (d : Dict String α), ∀ kv ∈ Dict.update d e, kv ∈ d ∨ kv ∈ e := by
  induction e with
  | nil => intro d kv h; exact .inl h
  | cons a t ih =>
    intro d kv h
    rw [Dict.update, List.foldl_cons] at h
    rcases ih _ kv h with h | h
    · rcases mem_set d a.1 a.2 kv h with h | h
      · exact .inl h
      · exact .inr (h ▸ List.mem_cons_self)
    · exact .inr (List.mem_cons_of_mem _ h)

mutual
theorem fn_params_sub (f : Fn V) : ∀ kv ∈ f.params, kv ∈ f.written := by
  match f with
  | .mk body fargs psr items added =>
    intro kv h
    rw [Fn.params] at h
    rw [Fn.written]
    rcases items_params_sub items [] kv h with h | h
    · cases h
    · exact h
theorem items_params_sub (items : Items V) : ∀ acc, ∀ kv ∈ items.params acc, kv ∈ acc ∨ kv ∈ items.written := by
  match items with
  | .nil => intro acc kv h; rw [Items.params] at h; exact .inl h
  | .cons kw it rest =>
    intro acc kv h
    rw [Items.params] at h
    rw [Items.written]
    rcases items_params_sub rest _ kv h with h | h
    · rcases item_params_sub it kw acc kv h with h | h
      · exact .inl h
      · exact .inr (List.mem_append_left _ h)
    · exact .inr (List.mem_append_right _ h)
theorem item_params_sub (it : Item V) : ∀ kw acc, ∀ kv ∈ it.params kw acc, kv ∈ acc ∨ kv ∈ it.written kw := by
  match it with
  | .par p =>
    intro kw acc kv h
    rw [Item.params] at h
    rw [Item.written]
    simpa using mem_set acc kw p kv h
  | .fn f =>
    intro kw acc kv h
    rw [Item.params] at h
    rw [Item.written]
    rcases mem_update _ _ kv h with h | h
    · exact .inl h
    · exact .inr (fn_params_sub f kv h)
  | .val v => intro kw acc kv h; rw [Item.params] at h; exact .inl h
end

/-- Names of all parameters and constants written in a Function. -/
def reads (f : Fn V) : List String := f.written.map fun kv => kv.2.name

mutual
/-- C124: the result of a Function depends on the dictionary only through the parameters written in the Function or in the
Functions given to it. -/
theorem C124_reads (f : Fn V) (args : List V) (kwargs params params' : Dict String V) (h : Same (reads f) params params') :
    f.call args kwargs params = f.call args kwargs params' := by
  match f with
  | .mk body fargs psr items added =>
    rw [Fn.call, Fn.call, augment_reads items _ _ _ params params' ?_ ?_]
    · intro kv hkv
      refine h _ (List.mem_map_of_mem ?_)
      rw [Fn.written]
      rcases items_params_sub items [] kv hkv with h | h
      · cases h
      · exact h
    · intro kv hkv
      exact h _ (List.mem_map_of_mem (by rw [Fn.written]; exact hkv))
theorem augment_reads (items : Items V) (pars : Dict String (ParRef V)) (dfl kwargs params params' : Dict String V)
    (hp : ∀ kv ∈ pars, Dict.get? params kv.2.name = Dict.get? params' kv.2.name)
    (hi : ∀ kv ∈ items.written, Dict.get? params kv.2.name = Dict.get? params' kv.2.name) :
    items.augment pars dfl kwargs params = items.augment pars dfl kwargs params' := by
  match items with
  | .nil => rw [Items.augment, Items.augment]
  | .cons kw it rest =>
    rw [Items.written] at hi
    have hr : ∀ d, rest.augment pars dfl d params = rest.augment pars dfl d params' := fun d =>
      augment_reads rest pars dfl d params params' hp fun kv hkv => hi kv (List.mem_append_right _ hkv)
    rw [Items.augment, Items.augment]
    split
    · exact hr _
    · cases hq : Dict.get? pars kw with
      | some q =>
        have hm : Dict.get? params q.name = Dict.get? params' q.name := by
          exact hp (kw, q) (Dict.mem_of_get?_eq_some hq)
        simp only [parValue, hm, hr]
      | none =>
        simp only
        cases Dict.get? dfl kw with
        | some v => simp only [hr]
        | none =>
          simp only [eval_reads it kw kwargs params params' fun kv hkv => hi kv (List.mem_append_left _ hkv), hr]
theorem eval_reads (it : Item V) (kw : String) (kwargs params params' : Dict String V)
    (h : ∀ kv ∈ it.written kw, Dict.get? params kv.2.name = Dict.get? params' kv.2.name) :
    it.eval kwargs params = it.eval kwargs params' := by
  match it with
  | .fn f =>
    rw [Item.eval, Item.eval, C124_reads f [] _ params params' ?_]
    intro n hn
    obtain ⟨kv, hkv, rfl⟩ := List.mem_map.1 hn
    exact h kv (by rw [Item.written]; exact hkv)
  | .par _ => rw [Item.eval, Item.eval]
  | .val _ => rw [Item.eval, Item.eval]
end

theorem get_asVals (inj : PVal K → V) (p : Params K) (n : String) : Dict.get? (asVals inj p) n = (Dict.get? p n).map inj := by
  induction p with
  | nil => rfl
  | cons kv t ih =>
    rw [asVals, List.map_cons, Dict.get?, Dict.get?]
    split
    · rfl
    · exact ih

theorem eval_same (inj : PVal K → V) (s : Sel V) (p p' : Params K) (h : Same (reads s.fn) p p') : s.eval inj p = s.eval inj p' := by
  refine C124_reads _ _ _ _ _ fun n hn => ?_
  rw [get_asVals, get_asVals, h n hn]

theorem call_same (inj : PVal K → V) (f : Fn V) (args : List V) (kw : Dict String V) (p p' : Params K) (h : Same (reads f) p p') :
    f.call args kw (asVals inj p) = f.call args kw (asVals inj p') := by
  refine C124_reads _ _ _ _ _ fun n hn => ?_
  rw [get_asVals, get_asVals, h n hn]

theorem look_same (inj : PVal K → V) (q : ParRef V) (p p' : Params K) (h : Dict.get? p q.name = Dict.get? p' q.name) :
    look inj p q = look inj p' q := by
  rw [look, look, h]

/-! ## What a signal registers -/

theorem get_set_ne {α : Type} (d : Dict String α) (k n : String) (v : α) (h : n ≠ k) : Dict.get? (Dict.set d k v) n = Dict.get? d n := by
  exact Dict.get?_set_ne _ _ (Ne.symm h)

/-- Every entry is stored under its name and comes from the list. -/
def Keyed (l : List (ParRef V)) (d : Dict String (ParRef V)) : Prop := ∀ n q, Dict.get? d n = some q → q.name = n ∧ q ∈ l

theorem register_keyed (l m : List (ParRef V)) : ∀ d, Keyed m d → Keyed (m ++ l) (register d l) ∧
    (∀ n, (Dict.get? d n).isSome → (Dict.get? (register d l) n).isSome) ∧ ∀ q ∈ l, (Dict.get? (register d l) q.name).isSome := by
  induction l generalizing m with
  | nil => intro d h; exact ⟨by simpa [register] using h, fun n h => h, by simp⟩
  | cons q t ih =>
    intro d h
    have h1 : Keyed (m ++ [q]) (Dict.set d q.name q) := by
      intro n q' hq
      by_cases hn : n = q.name
      · subst hn
        rw [Dict.get?_set_self] at hq
        obtain rfl := Option.some.inj hq
        exact ⟨rfl, by simp⟩
      · rw [get_set_ne _ _ _ _ hn] at hq
        exact ⟨(h n q' hq).1, List.mem_append_left _ (h n q' hq).2⟩
    obtain ⟨h2, h3, h4⟩ := ih _ _ h1
    rw [List.append_assoc, List.singleton_append] at h2
    have h5 : (Dict.get? (register d (q :: t)) q.name).isSome := h3 _ (by rw [Dict.get?_set_self]; rfl)
    refine ⟨h2, fun n hn => h3 n ?_, fun q' hq => ?_⟩
    · by_cases e : n = q.name
      · rw [e, Dict.get?_set_self]; rfl
      · rwa [get_set_ne _ _ _ _ e]
    · rcases List.mem_cons.1 hq with rfl | hq
      · exact h5
      · exact h4 q' hq

/-- All parameters that the Functions hold. -/
def held (fs : List (Fn V)) : List (ParRef V) := fs.flatMap fun f => Dict.values f.params

theorem registered_eq (fs : List (Fn V)) : registered fs = register [] (held fs) := by
  have : ∀ d, fs.foldl (fun d f => register d (Dict.values f.params)) d = register d (held fs) := by
    induction fs with
    | nil => intro d; rfl
    | cons f t ih =>
      intro d
      rw [List.foldl_cons, ih]
      simp [register, held, List.foldl_append]
  exact this []

theorem keyed_nil : Keyed ([] : List (ParRef V)) [] := by
  intro n q h
  cases h

/-- Names of the constants among these. -/
def constNames (l : List (ParRef V)) : List String := (l.filter fun q => q.const.isSome).map ParRef.name

theorem mem_constNames (l : List (ParRef V)) (n : String) : n ∈ constNames l ↔ ∃ q ∈ l, q.const.isSome ∧ q.name = n := by
  simp [constNames, and_assoc]

/-- Each name is among those of the varying parameters or of the constants. -/
theorem listed_or_const (l : List (ParRef V)) (q : ParRef V) (hq : q ∈ l) : q.name ∈ varying (register [] l) ∨ q.name ∈ constNames l := by
  obtain ⟨h1, -, h3⟩ := register_keyed l [] [] keyed_nil
  obtain ⟨q', hq'⟩ := Option.isSome_iff_exists.1 (h3 q hq)
  obtain ⟨h4, h5⟩ := h1 _ _ hq'
  cases hc : q'.const with
  | none =>
    left
    refine List.mem_map.2 ⟨q', List.mem_filter.2 ⟨List.mem_map.2 ⟨_, Dict.mem_of_get?_eq_some hq', rfl⟩, by simp [hc]⟩, h4⟩
  | some v => exact .inr ((mem_constNames _ _).2 ⟨q', h5, by simp [hc], h4⟩)

/-- The Functions of a signal. -/
def Obj.fns : Obj V → List (Fn V)
  | .white sels _ | .deterministic sels _ => sels.map Sel.fn
  | .ecorr _ _ | .wideband _ _ _ _ _ => []
  | .gp sels _ _ _ | .coefficients sels _ _ => sels.flatMap fun s => [s.2, s.1.fn]
  | .common basis prior orf _ _ _ => [prior, orf, basis.fn]

/-- The parameters that a signal reads itself. -/
def Obj.direct : Obj V → List (ParRef V)
  | .ecorr pars _ => Dict.values pars
  | .wideband pars _ _ _ _ | .coefficients _ pars _ => pars
  | _ => []

/-- Everything written in the definition of a signal. -/
def Obj.written (o : Obj V) : List (ParRef V) := (o.fns.flatMap fun f => f.written.map Prod.snd) ++ o.direct

/-- Names of the constants of a signal. -/
def Obj.fixed (o : Obj V) : List String := constNames o.written

/-- Within each Function of the signal no keyword is used twice (C80). -/
def Obj.Tidy (o : Obj V) : Prop := ∀ f ∈ o.fns, (f.written.map Prod.fst).Nodup

theorem held_eq (fs : List (Fn V)) (h : ∀ f ∈ fs, (f.written.map Prod.fst).Nodup) :
    held fs = fs.flatMap fun f => f.written.map Prod.snd := by
  induction fs with
  | nil => rfl
  | cons f t ih =>
    rw [List.flatMap_cons, ← ih fun g hg => h g (List.mem_cons_of_mem _ hg), held, List.flatMap_cons,
      C80_registered_partial f (h f List.mem_cons_self)]
    rfl

theorem obj_names (o : Obj V) (h : o.Tidy) : ∀ q ∈ o.written, q.name ∈ o.listed ∨ q.name ∈ o.fixed := by
  intro q hq
  have key : o.pars = register [] o.written → q.name ∈ o.listed ∨ q.name ∈ o.fixed := by
    intro e
    rw [Obj.listed, e]
    exact listed_or_const _ q hq
  cases o with
  | ecorr pars out =>
    simp only [Obj.written, Obj.fns, Obj.direct, List.flatMap_nil, List.nil_append] at hq
    cases hc : q.const with
    | none => exact .inl (List.mem_map.2 ⟨q, List.mem_filter.2 ⟨hq, by simp [hc]⟩, rfl⟩)
    | some v => exact .inr ((mem_constNames _ _).2 ⟨q, by simpa [Obj.written, Obj.fns, Obj.direct] using hq, by simp [hc], rfl⟩)
  | white sels out =>
    refine key ?_
    have e := held_eq _ h
    simp only [Obj.fns] at e
    rw [Obj.pars, registered_eq, e]
    simp [Obj.written, Obj.direct, Obj.fns]
  | deterministic sels out =>
    refine key ?_
    have e := held_eq _ h
    simp only [Obj.fns] at e
    rw [Obj.pars, registered_eq, e]
    simp [Obj.written, Obj.direct, Obj.fns]
  | gp sels label basis phi =>
    refine key ?_
    have e := held_eq _ h
    simp only [Obj.fns] at e
    rw [Obj.pars, registered_eq, e]
    simp [Obj.written, Obj.direct, Obj.fns]
  | coefficients sels pars out =>
    refine key ?_
    have e := held_eq _ h
    simp only [Obj.fns] at e
    rw [Obj.pars, registered_eq, e]
    simp [Obj.written, Obj.direct, Obj.fns, register, List.foldl_append]
  | common basis prior orf label pos times =>
    refine key ?_
    have e := held_eq _ h
    simp only [Obj.fns] at e
    rw [Obj.pars, registered_eq, e]
    simp [Obj.written, Obj.direct, Obj.fns]
  | wideband pars basis phi delay prior =>
    refine key ?_
    rw [Obj.pars]
    simp [Obj.written, Obj.direct, Obj.fns]

theorem same_reads (o : Obj V) (p p' : Params K) (h : ∀ q ∈ o.written, Dict.get? p q.name = Dict.get? p' q.name) :
    (∀ f ∈ o.fns, Same (reads f) p p') ∧ ∀ q ∈ o.direct, Dict.get? p q.name = Dict.get? p' q.name := by
  refine ⟨fun f hf n hn => ?_, fun q hq => h q (List.mem_append_right _ hq)⟩
  obtain ⟨kv, hkv, rfl⟩ := List.mem_map.1 hn
  exact h kv.2 (List.mem_append_left _ (List.mem_flatMap.2 ⟨f, hf, List.mem_map_of_mem hkv⟩))

theorem mapM_same {α : Type} (l : List α) (g g' : α → Except PyErr V) (h : ∀ x ∈ l, g x = g' x) : l.mapM g = l.mapM g' := by
  induction l with
  | nil => rfl
  | cons a t ih =>
    rw [List.mapM_cons, List.mapM_cons, h a List.mem_cons_self, ih fun x hx => h x (List.mem_cons_of_mem _ hx)]

/-- C124 (partial): all methods of a signal give the same result for two dictionaries that have the same entries for the parameters
the signal lists and for its constants.  Missing: Functions that use a keyword twice (`C124_lost_false`), dictionaries that differ
in an entry with the name of a constant (`C124_constant_false`). -/
theorem C124_signal_partial (inj : PVal K → V) (hyper : String → List String) (none zero pos : V) (o : Obj V) (ht : o.Tidy)
    (p p' : Params K) (h : Same (o.listed ++ o.fixed) p p') :
    (o.sig inj hyper none zero).ndiag p = (o.sig inj hyper none zero).ndiag p' ∧
    (o.sig inj hyper none zero).delay p = (o.sig inj hyper none zero).delay p' ∧
    (o.sig inj hyper none zero).basis p = (o.sig inj hyper none zero).basis p' ∧
    o.phi inj none p = o.phi inj none p' ∧ o.phicross inj none pos p = o.phicross inj none pos p' ∧
    o.logprior inj zero p = o.logprior inj zero p' := by
  have hw : ∀ q ∈ o.written, Dict.get? p q.name = Dict.get? p' q.name := by
    intro q hq
    refine h _ ?_
    rcases obj_names o ht q hq with h | h
    · exact List.mem_append_left _ h
    · exact List.mem_append_right _ h
  obtain ⟨hf, hd⟩ := same_reads o p p' hw
  cases o with
  | white sels out =>
    refine ⟨?_, rfl, rfl, rfl, rfl, rfl⟩
    simp only [Obj.sig]
    rw [mapM_same sels _ _ fun s hs => eval_same inj s p p' (hf _ (List.mem_map_of_mem hs))]
  | deterministic sels out =>
    refine ⟨rfl, ?_, rfl, rfl, rfl, rfl⟩
    simp only [Obj.sig]
    rw [mapM_same sels _ _ fun s hs => eval_same inj s p p' (hf _ (List.mem_map_of_mem hs))]
  | ecorr pars out =>
    refine ⟨?_, rfl, rfl, rfl, rfl, rfl⟩
    simp only [Obj.sig]
    rw [mapM_same (Dict.values pars) _ _ fun q hq => look_same inj q p p' (hd q hq)]
  | gp sels label basis phi =>
    have h1 := mapM_same sels _ _ fun s hs => eval_same inj s.1 p p' (hf s.1.fn (List.mem_flatMap.2 ⟨s, hs, by simp⟩))
    refine ⟨rfl, rfl, ?_, ?_, rfl, rfl⟩
    · simp only [Obj.sig]
      rw [h1]
    · simp only [Obj.phi]
      rw [h1]
      congr 1
      funext ls
      rw [mapM_same (sels.zip ls) _ _ fun x hx => call_same inj x.1.2 [label x.2] [] p p'
        (hf x.1.2 (List.mem_flatMap.2 ⟨x.1, (List.of_mem_zip hx).1, by simp⟩))]
  | coefficients sels pars out =>
    have h1 := mapM_same sels _ _ fun s hs => eval_same inj s.1 p p' (hf s.1.fn (List.mem_flatMap.2 ⟨s, hs, by simp⟩))
    refine ⟨rfl, ?_, rfl, rfl, rfl, rfl⟩
    simp only [Obj.sig]
    rw [h1, mapM_same pars _ _ fun q hq => look_same inj q p p' (hd q hq)]
  | common basis prior orf label pos1 times =>
    have h1 := eval_same inj basis p p' (hf _ (by simp [Obj.fns]))
    have h2 := fun args => call_same inj prior args [] p p' (hf _ (by simp [Obj.fns]))
    have h3 := fun args => call_same inj orf args [] p p' (hf _ (by simp [Obj.fns]))
    refine ⟨rfl, rfl, ?_, ?_, ?_, rfl⟩
    · simp only [Obj.sig, h1]
    · simp only [Obj.phi, h1, h2, h3]
    · simp only [Obj.phicross, h1, h2, h3]
  | wideband pars basis phi delay prior =>
    have h1 := mapM_same pars _ _ fun q hq => look_same inj q p p' (hd q hq)
    refine ⟨rfl, ?_, rfl, ?_, rfl, ?_⟩
    · simp only [Obj.sig]
      rw [h1]
    · simp only [Obj.phi]
      rw [h1]
    · simp only [Obj.logprior]
      rw [h1]

/-! ## Caches -/

/-- What the caches need of a Gaussian process with explicit coefficients: the basis has no varying parameters, and the names of
the coefficients can be recognised. -/
def Obj.Recognised : Obj V → Prop
  | .coefficients sels pars _ => (∀ s ∈ sels, ∀ kv ∈ s.1.fn.written, kv.2.const.isSome) ∧ ∀ q ∈ pars, isCoef q.name
  | _ => True

theorem fnVarying_or (hyper : String → List String) (f : Fn V) (h : (f.written.map Prod.fst).Nodup) :
    ∀ kv ∈ f.written, kv.2.name ∈ fnVarying hyper f ∨ kv.2.const.isSome := by
  intro kv hkv
  cases hc : kv.2.const with
  | some v => exact .inr rfl
  | none =>
    left
    rw [← C80_registered_partial f h] at hkv
    exact List.mem_flatMap.2 ⟨kv.2, List.mem_filter.2 ⟨List.mem_map_of_mem hkv, by simp [hc]⟩, by simp⟩

/-- The methods depend on nothing but the names they are cached under and the constants. -/
theorem sig_names (inj : PVal K → V) (hyper : String → List String) (none zero : V) (o : Obj V) (ht : o.Tidy) (hr : o.Recognised) :
    DependsOnly ((o.sig inj hyper none zero).ndiagNames ++ o.fixed) (o.sig inj hyper none zero).ndiag ∧
    DependsOnly ((o.sig inj hyper none zero).delayNames ++ o.fixed) (o.sig inj hyper none zero).delay ∧
    DependsOnly ((o.sig inj hyper none zero).collDelayNames ++ o.fixed) (o.sig inj hyper none zero).delay ∧
    DependsOnly ((o.sig inj hyper none zero).basisNames ++ o.fixed) (o.sig inj hyper none zero).basis := by
  have hfix : ∀ q ∈ o.written, q.const.isSome → q.name ∈ o.fixed := fun q hq hc => (mem_constNames _ _).2 ⟨q, hq, hc, rfl⟩
  have hfn : ∀ f ∈ o.fns, ∀ kv ∈ f.written, kv.2 ∈ o.written := fun f hf kv hkv =>
    List.mem_append_left _ (List.mem_flatMap.2 ⟨f, hf, List.mem_map_of_mem hkv⟩)
  have hb : ∀ (f : Fn V) (p p' : Params K) (names : List String), f ∈ o.fns → (∀ n ∈ fnVarying hyper f, n ∈ names) →
      Same (names ++ o.fixed) p p' → Same (reads f) p p' := by
    intro f p p' names hf hn h n hn'
    obtain ⟨kv, hkv, rfl⟩ := List.mem_map.1 hn'
    rcases fnVarying_or hyper f (ht f hf) kv hkv with h1 | h1
    · exact h _ (List.mem_append_left _ (hn _ h1))
    · exact h _ (List.mem_append_right _ (hfix _ (hfn f hf kv hkv) h1))
  have hl : o.listed = varying o.pars := rfl
  cases o with
  | white sels out =>
    refine ⟨fun p p' h => ?_, fun _ _ _ => rfl, fun _ _ _ => rfl, fun _ _ _ => rfl⟩
    exact (C124_signal_partial inj hyper none zero none _ ht p p' h).1
  | deterministic sels out =>
    refine ⟨fun _ _ _ => rfl, fun p p' h => ?_, fun p p' h => ?_, fun _ _ _ => rfl⟩
    · exact (C124_signal_partial inj hyper none zero none _ ht p p' h).2.1
    · exact (C124_signal_partial inj hyper none zero none _ ht p p' h).2.1
  | ecorr pars out =>
    refine ⟨fun p p' h => ?_, fun _ _ _ => rfl, fun _ _ _ => rfl, fun _ _ _ => rfl⟩
    exact (C124_signal_partial inj hyper none zero none _ ht p p' h).1
  | gp sels label basis phi =>
    refine ⟨fun _ _ _ => rfl, fun _ _ _ => rfl, fun _ _ _ => rfl, fun p p' h => ?_⟩
    simp only [Obj.sig]
    rw [mapM_same sels _ _ fun s hs => eval_same inj s.1 p p' (hb s.1.fn p p' _ (List.mem_flatMap.2 ⟨s, hs, by simp⟩)
      (fun n hn => List.mem_flatMap.2 ⟨s, hs, hn⟩) h)]
  | coefficients sels pars out =>
    obtain ⟨hr1, hr2⟩ := hr
    have key : ∀ p p' : Params K, Same ((varying (Obj.coefficients sels pars out).pars).filter isCoef ++
        (Obj.coefficients sels pars out).fixed) p p' →
        ((Obj.coefficients sels pars out).sig inj hyper none zero).delay p =
          ((Obj.coefficients sels pars out).sig inj hyper none zero).delay p' := by
      intro p p' h
      have h1 := mapM_same sels _ _ fun s hs => eval_same inj s.1 p p' (fun n hn => by
        obtain ⟨kv, hkv, rfl⟩ := List.mem_map.1 hn
        exact h _ (List.mem_append_right _ (hfix _ (hfn s.1.fn (List.mem_flatMap.2 ⟨s, hs, by simp⟩) kv hkv) (hr1 s hs kv hkv))))
      have h2 := mapM_same pars _ _ fun q hq => look_same inj q p p' (by
        refine h _ ?_
        rcases obj_names _ ht q (List.mem_append_right _ hq) with h | h
        · exact List.mem_append_left _ (List.mem_filter.2 ⟨h, hr2 q hq⟩)
        · exact List.mem_append_right _ h)
      simp only [Obj.sig]
      rw [h1, h2]
    refine ⟨fun _ _ _ => rfl, fun p p' h => key p p' fun n hn => ?_, fun p p' h => key p p' h, fun _ _ _ => rfl⟩
    refine h n ?_
    rcases List.mem_append.1 hn with hn | hn
    · exact List.mem_append_left _ (List.mem_append_right _ hn)
    · exact List.mem_append_right _ hn
  | common basis prior orf label pos1 times =>
    refine ⟨fun _ _ _ => rfl, fun _ _ _ => rfl, fun _ _ _ => rfl, fun p p' h => ?_⟩
    exact eval_same inj basis p p' (hb basis.fn p p' _ (by simp [Obj.fns]) (fun n hn => hn) h)
  | wideband pars basis phi delay prior =>
    have key : ∀ p p' : Params K, Same (pars.map ParRef.name ++ (Obj.wideband pars basis phi delay prior).fixed) p p' →
        pars.mapM (look inj p) = pars.mapM (look inj p') := fun p p' h => mapM_same pars _ _ fun q hq =>
      look_same inj q p p' (h _ (List.mem_append_left _ (List.mem_map_of_mem hq)))
    refine ⟨fun _ _ _ => rfl, fun p p' h => ?_, fun p p' h => ?_, fun _ _ _ => rfl⟩
    · simp only [Obj.sig]
      rw [key p p' h]
    · simp only [Obj.sig]
      rw [key p p' h]

/-- The two bodies make the same calls, with dictionaries in `S`. -/
def Alike {C P : Type} (S : P → Prop) : Prog C P V → Prog C P V → Prop
  | .done r, .done r' => r = r'
  | .call c p k, .call c' p' k' => c = c' ∧ p = p' ∧ S p ∧ ∀ v, Alike S (k v) (k' v)
  | _, _ => False

theorem alike_callAll {C P : Type} (S : P → Prop) (cs : List C) (p : P) (hp : S p) :
    ∀ k k' : List V → Prog C P V, (∀ vs, Alike S (k vs) (k' vs)) → Alike S (Prog.callAll cs p k) (Prog.callAll cs p k') := by
  induction cs with
  | nil => intro k k' h; exact h []
  | cons c t ih => intro k k' h; exact ⟨rfl, rfl, hp, fun v => ih _ _ fun vs => h (v :: vs)⟩

theorem alike_run {C P σ : Type} (S : P → Prop) (h h' : C → P → σ → σ × Except PyErr V) (hh : ∀ c p s, S p → h c p s = h' c p s) :
    ∀ (a b : Prog C P V) (s : σ), Alike S a b → a.run h s = b.run h' s := by
  intro a
  induction a with
  | done r =>
    intro b s hab
    cases b with
    | done r' => cases hab; rfl
    | call c p k => exact hab.elim
  | call c p k ih =>
    intro b s hab
    cases b with
    | done r' => exact hab.elim
    | call c' p' k' =>
      obtain ⟨rfl, rfl, hp, hk⟩ := hab
      rw [Prog.run, Prog.run]
      simp only [hh c p s hp]
      split
      · exact ih _ _ _ (hk _)
      · rfl

theorem alike_eval {C P : Type} (S : P → Prop) (h h' : C → P → Except PyErr V) (hh : ∀ c p, S p → h c p = h' c p) :
    ∀ (a b : Prog C P V), Alike S a b → a.eval h = b.eval h' := by
  intro a
  induction a with
  | done r =>
    intro b hab
    cases b with
    | done r' => cases hab; rfl
    | call c p k => exact hab.elim
  | call c p k ih =>
    intro b hab
    cases b with
    | done r' => exact hab.elim
    | call c' p' k' =>
      obtain ⟨rfl, rfl, hp, hk⟩ := hab
      rw [Prog.eval, Prog.eval, hh c p hp]
      split
      · exact ih _ _ (hk _)
      · rfl

section
variable [DecidableEq K]

/-- The same pulsar model on dictionaries in `S`. -/
structure Twin (S : Params K → Prop) (s s' : Sig K V) : Prop where
  ndiag : ∀ p, S p → s.ndiag p = s'.ndiag p
  delay : ∀ p, S p → s.delay p = s'.delay p
  basis : ∀ p, S p → s.basis p = s'.basis p
  ndiagNames : s.ndiagNames = s'.ndiagNames
  delayNames : s.delayNames = s'.delayNames
  collDelayNames : s.collDelayNames = s'.collDelayNames
  basisNames : s.basisNames = s'.basisNames

theorem twin_get {S : Params K → Prop} {l l' : List (Sig K V)} (h : List.Forall₂ (Twin S) l l') (i : Nat) :
    (l[i]? = none ∧ l'[i]? = none) ∨ ∃ s s', l[i]? = some s ∧ l'[i]? = some s' ∧ Twin S s s' := by
  induction h generalizing i with
  | nil => exact .inl ⟨rfl, rfl⟩
  | cons ha _ ih =>
    cases i with
    | zero => exact .inr ⟨_, _, rfl, rfl, ha⟩
    | succ i => exact ih i

theorem twin_flatMap {S : Params K → Prop} {l l' : List (Sig K V)} (h : List.Forall₂ (Twin S) l l') (f : Sig K V → List String)
    (hf : ∀ s s', Twin S s s' → f s = f s') : l.flatMap f = l'.flatMap f := by
  induction h with
  | nil => rfl
  | cons ha _ ih => rw [List.flatMap_cons, List.flatMap_cons, hf _ _ ha, ih]

theorem twin_names {S : Params K → Prop} {l l' : List (Sig K V)} (h : List.Forall₂ (Twin S) l l') (m : Meth) :
    methNames l m = methNames l' m := by
  have e1 : whiteNames l = whiteNames l' := twin_flatMap h _ fun _ _ t => t.ndiagNames
  have e2 : Cache.delayNames l = Cache.delayNames l' := twin_flatMap h _ fun _ _ t => t.collDelayNames
  have e3 : Cache.basisNames l = Cache.basisNames l' := twin_flatMap h _ fun _ _ t => t.basisNames
  cases m with
  | sigNdiag i =>
    rcases twin_get h i with ⟨h1, h2⟩ | ⟨s, s', h1, h2, t⟩
    · simp [methNames, h1, h2]
    · simp [methNames, h1, h2, t.ndiagNames]
  | sigDelay i =>
    rcases twin_get h i with ⟨h1, h2⟩ | ⟨s, s', h1, h2, t⟩
    · simp [methNames, h1, h2]
    · simp [methNames, h1, h2, t.delayNames]
  | sigBasis i =>
    rcases twin_get h i with ⟨h1, h2⟩ | ⟨s, s', h1, h2, t⟩
    · simp [methNames, h1, h2]
    · simp [methNames, h1, h2, t.basisNames]
  | _ => simp only [methNames, e1, e2, e3]

theorem twin_body {S : Params K → Prop} {l l' : List (Sig K V)} (h : List.Forall₂ (Twin S) l l') (ops : CollOps V) (res : V) (m : Meth)
    (p : Params K) (hp : S p) : Alike S (methBody ops res l m p) (methBody ops res l' m p) := by
  have hlen : l.length = l'.length := h.length_eq
  cases m with
  | sigNdiag i =>
    rcases twin_get h i with ⟨h1, h2⟩ | ⟨s, s', h1, h2, t⟩
    · simp only [methBody, h1, h2]; rfl
    · simp only [methBody, h1, h2, t.ndiag p hp]; rfl
  | sigDelay i =>
    rcases twin_get h i with ⟨h1, h2⟩ | ⟨s, s', h1, h2, t⟩
    · simp only [methBody, h1, h2]; rfl
    · simp only [methBody, h1, h2, t.delay p hp]; rfl
  | sigBasis i =>
    rcases twin_get h i with ⟨h1, h2⟩ | ⟨s, s', h1, h2, t⟩
    · simp only [methBody, h1, h2]; rfl
    · simp only [methBody, h1, h2, t.basis p hp]; rfl
  | ndiag =>
    simp only [methBody, hlen]
    exact alike_callAll S _ p hp _ _ fun _ => rfl
  | delay =>
    simp only [methBody, hlen]
    exact alike_callAll S _ p hp _ _ fun _ => rfl
  | basis =>
    simp only [methBody, hlen]
    exact alike_callAll S _ p hp _ _ fun _ => rfl
  | detres => exact ⟨rfl, rfl, hp, fun _ => rfl⟩
  | TNr =>
    refine ⟨rfl, rfl, hp, fun T => ?_⟩
    dsimp only
    split
    · rfl
    · exact ⟨rfl, rfl, hp, fun _ => ⟨rfl, rfl, hp, fun _ => rfl⟩⟩
  | TNT =>
    refine ⟨rfl, rfl, hp, fun T => ?_⟩
    dsimp only
    split
    · rfl
    · exact ⟨rfl, rfl, hp, fun _ => rfl⟩
  | rNr => exact ⟨rfl, rfl, hp, fun _ => ⟨rfl, rfl, hp, fun _ => rfl⟩⟩

theorem twin_call {S : Params K → Prop} {l l' : List (Sig K V)} (h : List.Forall₂ (Twin S) l l') (ops : CollOps V) (res : V) (n : Nat) :
    ∀ (m : Meth) (p : Params K) s, S p → (collection ops res l).callN n m p s = (collection ops res l').callN n m p s := by
  induction n with
  | zero => intro m p s _; rfl
  | succ n ih =>
    intro m p s hp
    rw [Family.callN, Family.callN]
    have e1 : (collection ops res l).key m p = (collection ops res l').key m p := by
      simp only [collection, twin_names h]
    have e2 : (fun s => ((collection ops res l).body m p).run ((collection ops res l).callN n) s) =
        fun s => ((collection ops res l').body m p).run ((collection ops res l').callN n) s := by
      funext s
      exact alike_run S _ _ (fun c q s hq => ih c q s hq) _ _ _ (twin_body h ops res m p hp)
    rw [e1, e2]
    rfl

theorem twin_eval {S : Params K → Prop} {l l' : List (Sig K V)} (h : List.Forall₂ (Twin S) l l') (ops : CollOps V) (res : V) (n : Nat) :
    ∀ (m : Meth) (p : Params K), S p → (collection ops res l).evalN n m p = (collection ops res l').evalN n m p := by
  induction n with
  | zero => intro m p _; rfl
  | succ n ih =>
    intro m p hp
    rw [Family.evalN, Family.evalN]
    exact alike_eval S _ _ (fun c q hq => ih c q hq) _ _ (twin_body h ops res m p hp)

theorem twin_hist {S : Params K → Prop} {l l' : List (Sig K V)} (h : List.Forall₂ (Twin S) l l') (ops : CollOps V) (res : V)
    (hist : List (Meth × Params K)) : (∀ mp ∈ hist, S mp.2) → ∀ s,
    (collection ops res l).runHist hist s = (collection ops res l').runHist hist s := by
  induction hist with
  | nil => intro _ s; rfl
  | cons mp t ih =>
    intro hS s
    obtain ⟨m, p⟩ := mp
    have e : (collection ops res l).callTop m p s = (collection ops res l').callTop m p s :=
      twin_call h ops res _ m p s (hS _ List.mem_cons_self)
    rw [Family.runHist, Family.runHist, e, ih fun mp hmp => hS mp (List.mem_cons_of_mem _ hmp)]

/-- The dictionary with the entries of `e` for the names in `cs`. -/
def fix (cs : List String) (e p : Params K) : Params K :=
  (e.filter fun kv => decide (kv.1 ∈ cs)) ++ p.filter fun kv => decide (kv.1 ∉ cs)

theorem get_fix (cs : List String) (e p : Params K) (n : String) :
    Dict.get? (fix cs e p) n = if n ∈ cs then Dict.get? e n else Dict.get? p n := by
  have h1 : ∀ (d : Params K) (q : String → Bool), Dict.get? (d.filter fun kv => q kv.1) n = if q n then Dict.get? d n else none := by
    intro d q
    induction d with
    | nil => simp [Dict.get?]
    | cons kv t ih =>
      by_cases hk : kv.1 = n
      · subst hk
        by_cases hq : q kv.1
        · simp [List.filter_cons, hq, Dict.get?]
        · rw [List.filter_cons, if_neg hq, ih, if_neg hq, if_neg hq]
      · rw [List.filter_cons]
        split
        · rw [Dict.get?, if_neg hk, ih, Dict.get?, if_neg hk]
        · rw [ih, Dict.get?, if_neg hk]
  have h2 : ∀ (d d' : Params K), Dict.get? (d ++ d') n = (Dict.get? d n).or (Dict.get? d' n) := by
    intro d d'
    induction d with
    | nil => simp [Dict.get?]
    | cons kv t ih =>
      rw [List.cons_append, Dict.get?, Dict.get?]
      split
      · rfl
      · exact ih
  rw [fix, h2, h1 e fun k => decide (k ∈ cs), h1 p fun k => decide (k ∉ cs)]
  by_cases h : n ∈ cs <;> simp [h]

/-- C124 (partial): a pulsar model made of the signals of the library.  In every history of calls in which the dictionaries have the
same entries for the names of the constants (usually none), every method returns what a model without caches returns.  Missing:
`C124_lost_false`, `C124_constant_false`, `C124_coefficients_false`, and `C33_coefficients_false`. -/
theorem C124_history_partial (inj : PVal K → V) (hyper : String → List String) (none zero : V) (ops : CollOps V) (res : V)
    (os : List (Obj V)) (ht : ∀ o ∈ os, o.Tidy) (hr : ∀ o ∈ os, o.Recognised) (e : Params K) (hist : List (Meth × Params K))
    (he : ∀ mp ∈ hist, Same (os.flatMap Obj.fixed) mp.2 e) :
    ((collection ops res (os.map (Obj.sig inj hyper none zero))).runHist hist Family.fresh).2 =
      hist.map fun mp => (collection ops res (os.map (Obj.sig inj hyper none zero))).evalTop mp.1 mp.2 := by
  let cs := os.flatMap Obj.fixed
  let S : Params K → Prop := fun p => Same cs p e
  let tw : Obj V → Sig K V := fun o =>
    let s := o.sig inj hyper none zero
    { s with ndiag := fun p => s.ndiag (fix cs e p), delay := fun p => s.delay (fix cs e p), basis := fun p => s.basis (fix cs e p) }
  have hfix : ∀ p, S p → ∀ n, Dict.get? p n = Dict.get? (fix cs e p) n := by
    intro p hp n
    rw [get_fix]
    split
    · rename_i h; exact hp n h
    · rfl
  have hT : List.Forall₂ (Twin S) (os.map (Obj.sig inj hyper none zero)) (os.map tw) := by
    rw [List.forall₂_map_left_iff, List.forall₂_map_right_iff]
    refine List.forall₂_same.2 fun o ho => ?_
    obtain ⟨h1, h2, h3, h4⟩ := sig_names inj hyper none zero o (ht o ho) (hr o ho)
    exact ⟨fun p hp => h1 _ _ fun n _ => hfix p hp n, fun p hp => h2 _ _ fun n _ => hfix p hp n,
      fun p hp => h4 _ _ fun n _ => hfix p hp n, rfl, rfl, rfl, rfl⟩
  have hok : ∀ s ∈ os.map tw, SigOk s := by
    intro s hs
    obtain ⟨o, ho, rfl⟩ := List.mem_map.1 hs
    obtain ⟨h1, h2, h3, h4⟩ := sig_names inj hyper none zero o (ht o ho) (hr o ho)
    have key : ∀ (names : List String) (p p' : Params K), (∀ n ∈ names, Dict.get? p n = Dict.get? p' n) →
        ∀ n ∈ names ++ o.fixed, Dict.get? (fix cs e p) n = Dict.get? (fix cs e p') n := by
      intro names p p' h n hn
      rw [get_fix, get_fix]
      split
      · rfl
      · rename_i hc
        rcases List.mem_append.1 hn with hn | hn
        · exact h n hn
        · exact absurd (List.mem_flatMap.2 ⟨o, ho, hn⟩) hc
    exact ⟨fun p p' h => h1 _ _ (key _ p p' h), fun p p' h => h2 _ _ (key _ p p' h), fun p p' h => h3 _ _ (key _ p p' h),
      fun p p' h => h4 _ _ (key _ p p' h)⟩
  rw [twin_hist hT ops res hist he, C33_history_independent_partial ops res _ hok hist]
  refine List.map_congr_left fun mp hmp => ?_
  exact (twin_eval hT ops res _ _ _ (he mp hmp)).symm

end

/-! ## Counterexamples -/

/-- Numbers as Python objects. -/
def num : PVal Int → Int
  | .scalar x => x
  | .vector _ => 0

/-- A Function `g(a)` that returns its argument. -/
def inner (p : ParRef Int) : Fn Int :=
  .mk (fun _ kw => (Dict.get? kw "a").elim (.error .typeError) .ok) [] none (.cons "a" (.par p) .nil) []

/-- White noise with a variance `f(g1, g2) = g1 + 10 g2`, both arguments being Functions with a parameter `a`. -/
def lossy : Obj Int :=
  .white [⟨[], .mk (fun _ kw => .ok ((Dict.get? kw "g1").getD 0 + 10 * (Dict.get? kw "g2").getD 0)) [] none
    (.cons "g1" (.fn (inner ⟨"B_g1_a", none⟩)) (.cons "g2" (.fn (inner ⟨"B_g2_a", none⟩)) .nil)) []⟩]
    fun l => .ok l.sum

/-- C124 is false when two Functions in a signal use the same keyword: the signal reads a parameter that it does not list, and a change
of this parameter is not seen. -/
theorem C124_lost_false :
    lossy.listed = ["B_g2_a"] ∧ lossy.fixed = [] ∧
    (lossy.sig num (fun _ => []) 0 0).ndiag [("B_g1_a", .scalar 1), ("B_g2_a", .scalar 2)] = .ok 21 ∧
    (lossy.sig num (fun _ => []) 0 0).ndiag [("B_g1_a", .scalar 5), ("B_g2_a", .scalar 2)] = .ok 25 ∧
    ((collection toyOps 0 [lossy.sig num (fun _ => []) 0 0]).runHist
      [(.ndiag, [("B_g1_a", .scalar 1), ("B_g2_a", .scalar 2)]), (.ndiag, [("B_g1_a", .scalar 5), ("B_g2_a", .scalar 2)])]
        Family.fresh).2 = [.ok 21, .ok 21] := by
  refine ⟨?_, ?_, ?_, ?_, ?_⟩ <;> decide +kernel

/-- White noise with the variance `a` for a constant `a` = 3. -/
def constant : Obj Int := .white [⟨[], inner ⟨"B_a", some 3⟩⟩] fun l => .ok l.sum

/-- C124 is false for dictionaries that differ in an entry with the name of a constant: the entry replaces the constant, although the
signal does not list it, and whether it does depends on the caches. -/
theorem C124_constant_false :
    constant.Tidy ∧ constant.listed = [] ∧
    (constant.sig num (fun _ => []) 0 0).ndiag [] = .ok 3 ∧ (constant.sig num (fun _ => []) 0 0).ndiag [("B_a", .scalar 7)] = .ok 7 ∧
    ((collection toyOps 0 [constant.sig num (fun _ => []) 0 0]).runHist [(.ndiag, []), (.ndiag, [("B_a", .scalar 7)])]
        Family.fresh).2 = [.ok 3, .ok 3] := by
  refine ⟨?_, ?_, ?_, ?_, ?_⟩
  · intro f hf
    obtain rfl : f = inner ⟨"B_a", some 3⟩ := by simpa [constant, Obj.fns] using hf
    simp [inner, Fn.written, Items.written, Item.written]
  all_goals decide +kernel

/-- A common process with the coefficients given as a Parameter with the name `gw` (gp_signals.py 317-321). -/
def given : Obj Int := .coefficients [] [⟨"gw", none⟩] fun _ cs => .ok cs.sum

/-- C124 is false for coefficients given under a name without `_coefficients`: they are listed, but a change of them is not seen. -/
theorem C124_coefficients_false :
    given.Tidy ∧ given.listed = ["gw"] ∧ given.fixed = [] ∧
    (given.sig num (fun _ => []) 0 0).delay [("gw", .scalar 1)] = .ok 1 ∧ (given.sig num (fun _ => []) 0 0).delay [("gw", .scalar 2)] = .ok 2 ∧
    ((collection toyOps 0 [given.sig num (fun _ => []) 0 0]).runHist [(.delay, [("gw", .scalar 1)]), (.delay, [("gw", .scalar 2)])]
        Family.fresh).2 = [.ok 1, .ok 1] := by
  refine ⟨?_, ?_, ?_, ?_, ?_, ?_⟩
  · intro f hf
    simp [given, Obj.fns] at hf
  all_goals decide +kernel

/-! ## Cases -/

/-- A pulsar with EFACs for two backends (one a constant), ECORR, red noise, a common process and explicit coefficients. -/
def pulsar : List (Obj Int) :=
  [.white [⟨[], inner ⟨"B_be1_efac", none⟩⟩, ⟨[], inner ⟨"B_be2_efac", some 1⟩⟩] fun l => .ok l.sum,
   .ecorr [("log10_ecorr", ⟨"B_log10_ecorr", none⟩)] fun l => .ok l.sum,
   .gp [(⟨[], inner ⟨"B_fmax", none⟩⟩, inner ⟨"B_log10_A", none⟩)] id (fun l => .ok l.sum) fun l => .ok l.sum,
   .common ⟨[], inner ⟨"B_gw_fmax", some 4⟩⟩ (inner ⟨"gw_log10_A", none⟩) (inner ⟨"orf_a", none⟩) id 0 fun x y => .ok (x * y),
   .coefficients [(⟨[], inner ⟨"B_dm_fmax", some 2⟩⟩, inner ⟨"B_dm_log10_A", none⟩)] [⟨"B_dm_coefficients", none⟩]
     fun bs cs => .ok (bs.sum * cs.sum),
   .wideband [⟨"B_dmefac", none⟩] 1 (fun l => .ok l.sum) (fun l => .ok l.sum) fun l => .ok l.sum]

theorem inner_tidy (q : ParRef Int) : ((inner q).written.map Prod.fst).Nodup := by
  simp [inner, Fn.written, Items.written, Item.written]

theorem pulsar_tidy : ∀ o ∈ pulsar, o.Tidy ∧ o.Recognised := by
  intro o ho
  simp only [pulsar, List.mem_cons, List.not_mem_nil, or_false] at ho
  rcases ho with rfl | rfl | rfl | rfl | rfl | rfl
  case inr.inr.inr.inr.inl =>
    refine ⟨fun f hf => ?_, ?_, ?_⟩
    · simp [Obj.fns] at hf
      rcases hf with rfl | rfl <;> exact inner_tidy _
    · simp [inner, Fn.written, Items.written, Item.written]
    · intro q hq
      obtain rfl : q = ⟨"B_dm_coefficients", none⟩ := by simpa using hq
      decide +kernel
  all_goals
    refine ⟨fun f hf => ?_, trivial⟩
    simp [Obj.fns] at hf
    try (rcases hf with rfl | rfl | rfl <;> exact inner_tidy _)
    try (rcases hf with rfl | rfl <;> exact inner_tidy _)

/-- The theorem about histories applies to it, for all dictionaries without entries for the constants. -/
example (hist : List (Meth × Params Int)) (h : ∀ mp ∈ hist, ∀ n ∈ ["B_be2_efac", "B_gw_fmax", "B_dm_fmax"], Dict.get? mp.2 n = none) :
    ((collection toyOps 0 (pulsar.map (Obj.sig num (fun _ => []) 0 0))).runHist hist Family.fresh).2 =
      hist.map fun mp => (collection toyOps 0 (pulsar.map (Obj.sig num (fun _ => []) 0 0))).evalTop mp.1 mp.2 := by
  refine C124_history_partial num _ 0 0 toyOps 0 pulsar (fun o ho => (pulsar_tidy o ho).1) (fun o ho => (pulsar_tidy o ho).2) [] hist ?_
  intro mp hmp n hn
  have e : pulsar.flatMap Obj.fixed = ["B_be2_efac", "B_gw_fmax", "B_dm_fmax"] := by decide +kernel
  rw [e] at hn
  rw [h mp hmp n hn]
  rfl

/-- The red noise reads the basis and the prior parameter and lists both. -/
example (v w : Int) (p : Params Int) (hp : Dict.get? p "B_fmax" = some (.scalar v) ∧ Dict.get? p "B_log10_A" = some (.scalar w)) :
    (Obj.gp [(⟨[], inner ⟨"B_fmax", none⟩⟩, inner ⟨"B_log10_A", none⟩)] id (fun l => .ok l.sum) fun l => .ok l.sum).phi num 0 p =
      (Obj.gp [(⟨[], inner ⟨"B_fmax", none⟩⟩, inner ⟨"B_log10_A", none⟩)] id (fun l => .ok l.sum) fun l => .ok l.sum).phi num 0
        [("B_log10_A", .scalar w), ("B_fmax", .scalar v)] := by
  refine (C124_signal_partial num (fun _ => []) 0 0 0 _ (pulsar_tidy _ (by simp [pulsar])).1 _ _ ?_).2.2.2.1
  intro n hn
  have e : (Obj.gp [((⟨[], inner ⟨"B_fmax", none⟩⟩ : Sel Int), inner ⟨"B_log10_A", none⟩)] id (fun l => .ok l.sum) fun l => .ok l.sum).listed ++
    (Obj.gp [((⟨[], inner ⟨"B_fmax", none⟩⟩ : Sel Int), inner ⟨"B_log10_A", none⟩)] id (fun l => .ok l.sum) fun l => .ok l.sum).fixed =
      ["B_log10_A", "B_fmax"] := by decide +kernel
  rw [e] at hn
  simp only [List.mem_cons, List.not_mem_nil, or_false] at hn
  rcases hn with rfl | rfl
  · rw [hp.2]; rfl
  · rw [hp.1]; rfl

end Verif.SigParams
