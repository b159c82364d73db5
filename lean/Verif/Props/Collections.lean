import Verif.Model.Collections
import Verif.Lemmas.Dict

/-!
# Properties C44, C45: adding and looking up models
-/

namespace Verif.Coll

open Verif

/-! ## C44 -/

section
variable {S : Type}

/-- The signals of a class, in order. -/
def Meta.signals : Meta S → List S
  | .sig s => [s]
  | .coll l => l
  | .alien => []

/-- The leaves of an expression from left to right. -/
def Expr.leaves {α : Type} : Expr α → List α
  | .leaf a => [a]
  | .add x y => x.leaves ++ y.leaves

theorem leaves_ne {α : Type} (t : Expr α) : t.leaves ≠ [] := by
  induction t with
  | leaf a => simp [Expr.leaves]
  | add x y ihx _ => simp [Expr.leaves, ihx]

/-- Something with `_metasignals` or a signal. -/
def Meta.Proper : Meta S → Prop
  | .alien => False
  | _ => True

theorem add_proper (a b : Meta S) (ha : a.Proper) (hb : b.Proper) :
    Meta.add a b = .ok (.coll (a.signals ++ b.signals)) := by
  cases a <;> cases b <;> simp_all [Meta.Proper, Meta.add, Meta.signals]

/-- C44: a sum of signals and collections, bracketed in any way, is the collection of all their signals
in the order written. -/
theorem C44_signals (x y : Expr (Meta S)) (h : ∀ a ∈ (Expr.add x y).leaves, a.Proper) :
    (Expr.add x y).eval Meta.add = .ok (.coll ((Expr.add x y).leaves.flatMap Meta.signals)) := by
  have key : ∀ t : Expr (Meta S), (∀ a ∈ t.leaves, a.Proper) →
      ∃ m, t.eval Meta.add = .ok m ∧ m.Proper ∧ m.signals = t.leaves.flatMap Meta.signals := by
    intro t
    induction t with
    | leaf a => intro h; exact ⟨a, rfl, h a (by simp [Expr.leaves]), by simp [Expr.leaves]⟩
    | add x y ihx ihy =>
      intro h
      obtain ⟨a, e1, p1, s1⟩ := ihx fun a ha => h a (by simp [Expr.leaves, ha])
      obtain ⟨b, e2, p2, s2⟩ := ihy fun a ha => h a (by simp [Expr.leaves, ha])
      refine ⟨.coll (a.signals ++ b.signals), ?_, trivial, ?_⟩
      · rw [Expr.eval, e1, e2]; exact add_proper a b p1 p2
      · simp only [Expr.leaves, List.flatMap_append, ← s1, ← s2]; rfl
  obtain ⟨a, e1, p1, s1⟩ := key x fun a ha => h a (by simp [Expr.leaves, ha])
  obtain ⟨b, e2, p2, s2⟩ := key y fun a ha => h a (by simp [Expr.leaves, ha])
  rw [Expr.eval, e1, e2]
  simp only
  rw [add_proper a b p1 p2, s1, s2]
  simp [Expr.leaves]

/-- C44: two sums with the same operands in the same order are equal, whatever the brackets. -/
theorem C44_brackets (x y x' y' : Expr (Meta S)) (h : ∀ a ∈ (Expr.add x y).leaves, a.Proper)
    (hl : (Expr.add x y).leaves = (Expr.add x' y').leaves) :
    (Expr.add x y).eval Meta.add = (Expr.add x' y').eval Meta.add := by
  rw [C44_signals x y h, C44_signals x' y' (by rw [← hl]; exact h), hl]

/-- C44: a sum with an operand that is neither raises `TypeError`. -/
theorem C44_alien (x y : Expr (Meta S)) (h : Meta.alien ∈ (Expr.add x y).leaves) :
    (Expr.add x y).eval Meta.add = .error .typeError := by
  have typ : ∀ a b : Meta S, ∀ e, Meta.add a b = .error e → e = .typeError := by
    intro a b e h
    cases a <;> cases b <;> simp_all [Meta.add]
  have err : ∀ t : Expr (Meta S), ∀ e, t.eval Meta.add = .error e → e = .typeError := by
    intro t
    induction t with
    | leaf a => intro e h; cases h
    | add x y ihx ihy =>
      intro e h
      rw [Expr.eval] at h
      cases hx : x.eval Meta.add with
      | error e' => rw [hx] at h; cases h; exact ihx _ hx
      | ok a =>
        rw [hx] at h
        cases hy : y.eval Meta.add with
        | error e' => rw [hy] at h; cases h; exact ihy _ hy
        | ok b => rw [hy] at h; exact typ a b e h
  have bad : ∀ t : Expr (Meta S), Meta.alien ∈ t.leaves → t.eval Meta.add = .error .typeError ∨ t.eval Meta.add = .ok .alien := by
    intro t
    induction t with
    | leaf a =>
      intro h
      simp only [Expr.leaves, List.mem_singleton] at h
      subst h
      exact Or.inr rfl
    | add x y ihx ihy =>
      intro h
      left
      rw [Expr.eval]
      simp only [Expr.leaves, List.mem_append] at h
      rcases h with h | h
      · rcases ihx h with e | e
        · rw [e]
        · rw [e]
          simp only
          cases hy : y.eval Meta.add with
          | error e' => rw [err y e' hy]
          | ok b => rfl
      · cases hx : x.eval Meta.add with
        | error e' => rw [err x e' hx]
        | ok a =>
          simp only
          rcases ihy h with e | e
          · rw [e]
          · rw [e]; cases a <;> rfl
  rcases bad _ h with e | e
  · exact e
  · rw [Expr.eval] at e
    exfalso
    cases hx : x.eval Meta.add with
    | error e' => rw [hx] at e; cases e
    | ok a =>
      rw [hx] at e
      cases hy : y.eval Meta.add with
      | error e' => rw [hy] at e; cases e
      | ok b =>
        rw [hy] at e
        cases a <;> cases b <;> simp [Meta.add] at e

example : (Expr.add (.leaf (.sig 1)) (.add (.leaf (.coll [2, 3])) (.leaf (.sig 4)))).eval Meta.add =
    (Expr.add (.add (.leaf (.sig 1)) (.leaf (.coll [2, 3]))) (.leaf (.sig 4)) : Expr (Meta Nat)).eval Meta.add := rfl

end

/-- The pulsar models in an object. -/
def Model.scs : Model → List ScObj
  | .sc c => [c]
  | .pta l _ => l

/-- What the sum evaluates to when it does: a single leaf is itself. -/
def isSc : Expr Model → Bool
  | .leaf (.sc _) => true
  | _ => false

/-- No single pulsar model is added to the left of something that is not a single pulsar model. -/
def LeftNested : Expr Model → Prop
  | .leaf _ => True
  | .add x y => LeftNested x ∧ LeftNested y ∧ (isSc x = true → isSc y = true)

theorem mkPta_scs (l : List ScObj) (like : Nat) : mkPta (l.map .sc) like = .ok (.pta l like) := by
  induction l with
  | nil => rfl
  | cons a t ih => rw [List.map_cons, mkPta, ih]

/-- Evaluation of a left-nested sum. -/
theorem eval_leftNested (t : Expr Model) (h : LeftNested t) :
    ∃ m, t.eval Model.add = .ok m ∧ m.scs = t.leaves.flatMap Model.scs ∧
      ((∃ c, m = .sc c) ↔ isSc t = true) := by
  induction t with
  | leaf a =>
    refine ⟨a, rfl, by simp [Expr.leaves], ?_⟩
    cases a <;> simp [isSc]
  | add x y ihx ihy =>
    obtain ⟨h1, h2, h3⟩ := h
    obtain ⟨a, e1, s1, i1⟩ := ihx h1
    obtain ⟨b, e2, s2, i2⟩ := ihy h2
    rw [Expr.eval, e1, e2]
    simp only [Expr.leaves, List.flatMap_append, ← s1, ← s2]
    have hfin : (isSc (Expr.add x y) = true) = False := by simp [isSc]
    rw [hfin]
    cases a with
    | sc c =>
      have hb : isSc y = true := h3 (i1.1 ⟨c, rfl⟩)
      obtain ⟨c', rfl⟩ := i2.2 hb
      exact ⟨.pta [c, c'] defaultLike, by rw [Model.add]; exact mkPta_scs [c, c'] defaultLike, rfl, by simp⟩
    | pta l like =>
      cases b with
      | sc c =>
        refine ⟨.pta (l ++ [c]) like, ?_, rfl, by simp⟩
        rw [Model.add]
        have : l.map Model.sc ++ [Model.sc c] = (l ++ [c]).map Model.sc := by simp
        rw [this]; exact mkPta_scs _ _
      | pta m like' =>
        refine ⟨.pta (l ++ m) like, ?_, rfl, by simp⟩
        rw [Model.add, ← List.map_append]
        exact mkPta_scs _ _

/-- C44 (partial): a sum of pulsar models and arrays in which no single pulsar model stands to the left
of anything but a single pulsar model is the array of all their pulsar models in order.  Missing: the other
bracketings, which raise (`C44_right_nested_false`). -/
theorem C44_pta_partial (x y : Expr Model) (h : LeftNested (Expr.add x y)) :
    ∃ like, (Expr.add x y).eval Model.add = .ok (.pta ((Expr.add x y).leaves.flatMap Model.scs) like) := by
  obtain ⟨m, e, s, i⟩ := eval_leftNested _ h
  cases m with
  | sc c => have := i.1 ⟨c, rfl⟩; simp [isSc] at this
  | pta l like => exact ⟨like, by rw [e, ← s]; rfl⟩

/-- C44 is false for arrays: exactly the sums that are not left-nested raise `AttributeError`. -/
theorem C44_right_nested_false (t : Expr Model) : ¬ LeftNested t ↔ t.eval Model.add = .error .attributeError := by
  constructor
  · intro h
    induction t with
    | leaf a => exact absurd trivial h
    | add x y ihx ihy =>
      rw [Expr.eval]
      by_cases h1 : LeftNested x
      · obtain ⟨a, e1, s1, i1⟩ := eval_leftNested x h1
        rw [e1]
        simp only
        by_cases h2 : LeftNested y
        · obtain ⟨b, e2, s2, i2⟩ := eval_leftNested y h2
          rw [e2]
          simp only
          have h3 : isSc x = true ∧ ¬ isSc y = true := by
            by_contra hc
            exact h ⟨h1, h2, fun hx => by by_contra hy; exact hc ⟨hx, hy⟩⟩
          obtain ⟨c, rfl⟩ := i1.2 h3.1
          cases b with
          | sc c' => exact absurd (i2.1 ⟨c', rfl⟩) h3.2
          | pta l like => rfl
        · rw [ihy h2]
      · rw [ihx h1]
  · intro h hl
    obtain ⟨m, e, -, -⟩ := eval_leftNested t hl
    rw [e] at h
    cases h

/-- Three pulsar models: `(a + b) + c` works, `a + (b + c)` raises. -/
example (a b c : ScObj) :
    (Expr.add (.add (.leaf (.sc a)) (.leaf (.sc b))) (.leaf (.sc c))).eval Model.add = .ok (.pta [a, b, c] 0) ∧
    (Expr.add (.leaf (.sc a)) (.add (.leaf (.sc b)) (.leaf (.sc c)))).eval Model.add = .error .attributeError := ⟨rfl, rfl⟩

/-- C44: the likelihood of a sum of arrays is that of the first one. -/
theorem C44_likelihood (l m : List ScObj) (like like' : Nat) :
    Model.add (.pta l like) (.pta m like') = .ok (.pta (l ++ m) like) := by
  rw [Model.add, ← List.map_append]
  exact mkPta_scs _ _

/-! ## C45 -/

/-- `x` is the first element of `l` with attribute `k`. -/
def IsFirst {α : Type} (attr : α → String) (k : String) (l : List α) (x : α) : Prop :=
  ∃ pre post, l = pre ++ x :: post ∧ attr x = k ∧ ∀ y ∈ pre, attr y ≠ k

theorem firstWith_ok {α : Type} (attr : α → String) (k : String) (l : List α) (x : α) :
    firstWith attr k l = .ok x ↔ IsFirst attr k l x := by
  induction l with
  | nil =>
    constructor
    · intro h; cases h
    · rintro ⟨pre, post, h, -, -⟩; simp at h
  | cons a t ih =>
    rw [firstWith]
    split
    · rename_i h
      constructor
      · intro e; cases e; exact ⟨[], t, rfl, h, by simp⟩
      · rintro ⟨pre, post, e, hx, hp⟩
        cases pre with
        | nil => simp only [List.nil_append, List.cons.injEq] at e; rw [e.1]
        | cons b u =>
          simp only [List.cons_append, List.cons.injEq] at e
          exact absurd (e.1 ▸ h) (hp b (by simp))
    · rename_i h
      rw [ih]
      constructor
      · rintro ⟨pre, post, e, hx, hp⟩
        refine ⟨a :: pre, post, by rw [e]; rfl, hx, ?_⟩
        intro y hy
        rcases List.mem_cons.1 hy with rfl | hy
        · exact h
        · exact hp y hy
      · rintro ⟨pre, post, e, hx, hp⟩
        cases pre with
        | nil =>
          simp only [List.nil_append, List.cons.injEq] at e
          exact absurd (e.1 ▸ hx) h
        | cons b u =>
          simp only [List.cons_append, List.cons.injEq] at e
          exact ⟨u, post, e.2, hx, fun y hy => hp y (by simp [hy])⟩

theorem firstWith_err {α : Type} (attr : α → String) (k : String) (l : List α) :
    firstWith attr k l = .error .keyError ↔ ∀ x ∈ l, attr x ≠ k := by
  induction l with
  | nil => simp [firstWith]
  | cons a t ih =>
    rw [firstWith]
    split
    · rename_i h
      constructor
      · intro e; cases e
      · intro hx; exact absurd h (hx a (by simp))
    · rename_i h
      rw [ih]
      simp [h]

/-- C45: `pta[name]` is the first pulsar model of that name, `KeyError` iff there is none. -/
theorem C45_pulsar (l : List ScObj) (name : String) :
    (∀ c, ptaGet l (.str name) = .ok c ↔ IsFirst ScObj.psrname name l c) ∧
    (ptaGet l (.str name) = .error .keyError ↔ ∀ c ∈ l, c.psrname ≠ name) :=
  ⟨firstWith_ok ScObj.psrname name l, firstWith_err ScObj.psrname name l⟩

/-- C45: `collection[signal_id]` likewise. -/
theorem C45_collection (c : ScObj) (sid : String) :
    (∀ s, scGet c (.str sid) = .ok s ↔ IsFirst SigObj.sid sid c.signals s) ∧
    (scGet c (.str sid) = .error .keyError ↔ ∀ s ∈ c.signals, s.sid ≠ sid) :=
  ⟨firstWith_ok SigObj.sid sid c.signals, firstWith_err SigObj.sid sid c.signals⟩

/-- C45: integers give positions, negative ones from the end, `IndexError` outside. -/
theorem C45_integer (l : List ScObj) :
    (∀ i : Nat, (h : i < l.length) → ptaGet l (.int i) = .ok l[i]) ∧
    (∀ i : Nat, (h : i < l.length) → ptaGet l (.int (-(i + 1 : Int))) = .ok l[l.length - 1 - i]) ∧
    (∀ i : Int, (l.length : Int) ≤ i ∨ i < -(l.length : Int) → ptaGet l (.int i) = .error .indexError) := by
  refine ⟨?_, ?_, ?_⟩
  · intro i h
    simp only [ptaGet, pyIndex]
    rw [if_neg (by omega), if_neg (by omega)]
    simp [h]
  · intro i h
    simp only [ptaGet, pyIndex]
    have hneg : (-((i : Int) + 1)) < 0 := by omega
    rw [if_pos hneg, if_neg (by omega)]
    have e : (-((i : Int) + 1) + l.length).toNat = l.length - 1 - i := by omega
    rw [e, List.getElem?_eq_getElem (by omega)]
  · intro i h
    simp only [ptaGet, pyIndex]
    by_cases hi : i < 0
    · rw [if_pos hi, if_pos (by omega)]
    · rw [if_neg hi, if_neg hi, List.getElem?_eq_none (by omega)]

theorem signalDict_get (l : List SigObj) : ∀ (seen : List String) (d : Dict String SigObj),
    (∀ n, n ∈ seen ↔ (Dict.get? d n).isSome = true) → ∀ n,
    Dict.get? (signalDict l seen d) n = match Dict.get? d n with
      | some s => some s
      | none => l.find? fun s => s.name = n := by
  induction l with
  | nil =>
    intro seen d _ n
    rw [signalDict]
    cases Dict.get? d n <;> rfl
  | cons a t ih =>
    intro seen d hs n
    rw [signalDict]
    by_cases ha : a.name ∉ seen
    · rw [if_pos ha, ih]
      · rw [Dict.get?_set]
        by_cases hn : a.name = n
        · subst hn
          have : Dict.get? d a.name = none := by
            cases hd : Dict.get? d a.name with
            | none => rfl
            | some s => exact absurd ((hs a.name).2 (by simp [hd])) ha
          simp [this]
        · rw [if_neg hn, List.find?_cons]
          simp [hn]
      · intro m
        rw [List.mem_append, List.mem_singleton, hs m, Dict.get?_set]
        by_cases hm : a.name = m
        · simp [hm]
        · rw [if_neg hm]; simp [Ne.symm hm]
    · rw [if_neg ha, ih seen d hs]
      cases hd : Dict.get? d n with
      | some s => rfl
      | none =>
        simp only
        have : a.name ≠ n := by
          intro e
          subst e
          have := (hs a.name).1 (not_not.1 ha)
          rw [hd] at this
          simp at this
        rw [List.find?_cons]
        simp [this]

/-- C45: `pta.get_signal(name)` is the first signal of that name over all pulsars in order, `KeyError`
iff there is none. -/
theorem C45_signal (l : List ScObj) (name : String) :
    (∀ s, getSignal l name = .ok s ↔ IsFirst SigObj.name name (l.flatMap ScObj.signals) s) ∧
    (getSignal l name = .error .keyError ↔ ∀ c ∈ l, ∀ s ∈ c.signals, s.name ≠ name) := by
  have h := signalDict_get (l.flatMap ScObj.signals) [] [] (by simp [Dict.get?]) name
  have hf : ∀ m : List SigObj, (match m.find? (fun s => s.name = name) with
      | some s => Except.ok s | none => Except.error PyErr.keyError) = firstWith SigObj.name name m := by
    intro m
    induction m with
    | nil => rfl
    | cons a t ih =>
      rw [firstWith, List.find?_cons]
      by_cases ha : a.name = name
      · simp [ha]
      · simp only [ha, decide_false, if_false]
        exact ih
  have e : getSignal l name = firstWith SigObj.name name (l.flatMap ScObj.signals) := by
    rw [← hf]
    unfold getSignal Dict.get!
    rw [h]
    simp only [Dict.get?]
    cases (List.find? (fun s => decide (s.name = name)) (List.flatMap ScObj.signals l)) <;> rfl
  rw [e]
  refine ⟨firstWith_ok SigObj.name name _, ?_⟩
  rw [firstWith_err]
  constructor
  · intro h c hc s hs
    exact h s (List.mem_flatMap.2 ⟨c, hc, hs⟩)
  · intro h s hs
    obtain ⟨c, hc, hs⟩ := List.mem_flatMap.1 hs
    exact h c hc s hs

example :
    let a : SigObj := ⟨"A_rn", "red_noise"⟩
    let b : SigObj := ⟨"A_rn", "dm"⟩
    getSignal [⟨"A", [a, b]⟩, ⟨"B", []⟩] "A_rn" = .ok a ∧ ptaGet [⟨"A", [a, b]⟩, ⟨"A", []⟩] (.str "A") = .ok ⟨"A", [a, b]⟩ ∧
    scGet ⟨"A", [a, b]⟩ (.str "dm") = .ok b ∧ scGet ⟨"A", [a, b]⟩ (.int (-1)) = .ok b := by decide +kernel

end Verif.Coll
