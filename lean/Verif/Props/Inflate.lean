import Verif.Model.Inflate

/-! # C21-C23: sharing pulsars between processes -/

set_option linter.unusedSectionVars false

namespace Verif.Inflate

open Verif

variable {D : Type}

/-! ## Specification vocabulary -/

/-- What a process sees when it uses the attribute: nothing for an inflater. -/
def seen (m : Mem D) : AVal D → Option D
  | .arr d => some d
  | .other d => some d
  | .infl _ => none
  | .view id => m.objs[id]?

/-- The attribute stands for the original value `o`. -/
def Stands (m : Mem D) (o : D) : AVal D → Prop
  | .arr d => d = o
  | .other d => d = o
  | .infl id => m.objs[id]? = some o
  | .view id => m.objs[id]? = some o

/-- All attributes stand for the originals. -/
def AttrsOk (orig : List D) (m : Mem D) (as : List (AVal D)) : Prop :=
  List.Forall₂ (Stands m) orig as

/-- Invariant of all executions. -/
structure Inv (orig : List D) (w : World D) : Prop where
  ok : ∀ p ∈ w.psrs, AttrsOk orig w.mem p.attrs
  inflated : ∀ p ∈ w.psrs, p.st = .inflated → ∀ a ∈ p.attrs, ∀ id, a ≠ .infl id

theorem getElem?_append_some {l : List D} {i : Nat} {d : D} (x : List D) (h : l[i]? = some d) :
    (l ++ x)[i]? = some d := by
  rw [List.getElem?_append_left]
  · exact h
  · exact (List.getElem?_eq_some_iff.1 h).1

theorem stands_mono {m m' : Mem D} {x : List D} (hm : m'.objs = m.objs ++ x) {o : D} {a : AVal D}
    (h : Stands m o a) : Stands m' o a := by
  cases a with
  | arr d => exact h
  | other d => exact h
  | infl id => simp only [Stands] at *; rw [hm]; exact getElem?_append_some x h
  | view id => simp only [Stands] at *; rw [hm]; exact getElem?_append_some x h

theorem attrsOk_mono {m m' : Mem D} {x : List D} (hm : m'.objs = m.objs ++ x) {orig : List D}
    {as : List (AVal D)} (h : AttrsOk orig m as) : AttrsOk orig m' as :=
  List.Forall₂.imp (fun _ _ h => stands_mono hm h) h

theorem stands_alloc {m : Mem D} {o : D} : Stands (alloc m o).1 o (.infl (alloc m o).2) := by
  simp [Stands, alloc]

theorem deflateAttr_ok {m m' : Mem D} {fault : Bool} {a a' : AVal D} (h : deflateAttr fault m a = (m', .ok a')) :
    (∃ x, m'.objs = m.objs ++ x) ∧ (∀ o, Stands m o a → Stands m' o a') ∧
    (∀ d, a' ≠ .arr d) ∧ ∀ id, a' ≠ .view id := by
  cases a with
  | arr d =>
    simp only [deflateAttr] at h
    split at h
    · cases h
    · cases h
      exact ⟨⟨[d], rfl⟩, fun o ho => by cases ho; exact stands_alloc, by simp, by simp⟩
  | view id =>
    simp only [deflateAttr] at h
    cases hd : m.objs[id]? with
    | none => rw [hd] at h; cases h
    | some d =>
      rw [hd] at h
      simp only at h
      split at h
      · cases h
      · cases h
        refine ⟨⟨[d], rfl⟩, fun o ho => ?_, by simp, by simp⟩
        simp only [Stands] at ho
        rw [hd] at ho; cases ho; exact stands_alloc
  | other d => cases h; exact ⟨⟨[], by simp⟩, fun o ho => ho, by simp, by simp⟩
  | infl id => cases h; exact ⟨⟨[], by simp⟩, fun o ho => ho, by simp, by simp⟩

theorem inflateAttr_ok {m : Mem D} {fault : Bool} {a a' : AVal D} (h : inflateAttr fault m a = .ok a') :
    (∀ o, Stands m o a → Stands m o a') ∧ ∀ id, a' ≠ .infl id := by
  cases a with
  | infl id =>
    simp only [inflateAttr] at h
    split at h
    · cases h
    · split at h
      · cases h; exact ⟨fun o ho => ho, by simp⟩
      · cases h
  | arr d => cases h; exact ⟨fun o ho => ho, by simp⟩
  | other d => cases h; exact ⟨fun o ho => ho, by simp⟩
  | view id => cases h; exact ⟨fun o ho => ho, by simp⟩

theorem destroyAttr_ok {m m' : Mem D} {fault : Bool} {a : AVal D} (h : destroyAttr fault m a = .ok m') :
    m'.objs = m.objs := by
  cases a with
  | infl id =>
    simp only [destroyAttr] at h
    split at h
    · cases h
    · split at h
      · cases h; rfl
      · cases h
  | arr d => cases h; rfl
  | other d => cases h; rfl
  | view id => cases h; rfl

theorem attrsOk_set {m : Mem D} {orig : List D} {as : List (AVal D)} (h : AttrsOk orig m as) {j : Nat}
    {a a' : AVal D} (ha : as[j]? = some a) (hs : ∀ o, Stands m o a → Stands m o a') :
    AttrsOk orig m (as.set j a') := by
  unfold AttrsOk at *
  induction h generalizing j with
  | nil => simp at ha
  | cons h1 h2 ih =>
    cases j with
    | zero => simp at ha; subst ha; exact List.Forall₂.cons (hs _ h1) h2
    | succ j => exact List.Forall₂.cons h1 (ih (by simpa using ha))

theorem attrsOk_pickle {m : Mem D} {orig : List D} {as : List (AVal D)} (h : AttrsOk orig m as) :
    AttrsOk orig m (as.map (pickleAttr m)) := by
  unfold AttrsOk at *
  induction h with
  | nil => exact List.Forall₂.nil
  | @cons o a _ _ h1 h2 ih =>
    refine List.Forall₂.cons ?_ ih
    cases a with
    | view id =>
      simp only [Stands] at h1
      simp [pickleAttr, h1, Stands]
    | arr d => exact h1
    | other d => exact h1
    | infl id => exact h1

theorem inv_set {orig : List D} {m m' : Mem D} {x : List D} {psrs : List (Psr D)} (hm : m'.objs = m.objs ++ x)
    (h : Inv orig ⟨m, psrs⟩) (i : Nat) (p' : Psr D) (hok : AttrsOk orig m' p'.attrs)
    (hin : p'.st = .inflated → ∀ a ∈ p'.attrs, ∀ id, a ≠ .infl id) : Inv orig ⟨m', psrs.set i p'⟩ := by
  constructor
  · intro q hq
    rcases List.mem_or_eq_of_mem_set hq with hq | rfl
    · exact attrsOk_mono hm (h.ok q hq)
    · exact hok
  · intro q hq
    rcases List.mem_or_eq_of_mem_set hq with hq | rfl
    · exact h.inflated q hq
    · exact hin

theorem inv_step {orig : List D} {w w' : World D} (h : Inv orig w) (s : Step w w') : Inv orig w' := by
  obtain ⟨m, psrs⟩ := w
  cases s with
  | deflAttr i j p a a' m' hp hs ha hd =>
    obtain ⟨⟨x, hx⟩, hst, -, -⟩ := deflateAttr_ok hd
    apply inv_set hx h
    · have hok := h.ok p (List.mem_of_getElem? hp)
      -- replace the j-th attribute, moving to the new memory
      have hmono := attrsOk_mono hx hok
      unfold AttrsOk at *
      clear hmono
      have key : ∀ (orig : List D) (as : List (AVal D)) (j : Nat), List.Forall₂ (Stands m) orig as →
          as[j]? = some a → List.Forall₂ (Stands m') orig (as.set j a') := by
        intro orig as j hf
        induction hf generalizing j with
        | nil => intro h; simp at h
        | cons h1 h2 ih =>
          intro hj
          cases j with
          | zero =>
            simp at hj; subst hj
            exact List.Forall₂.cons (hst _ h1) (List.Forall₂.imp (fun _ _ h => stands_mono hx h) h2)
          | succ j => exact List.Forall₂.cons (stands_mono hx h1) (ih j (by simpa using hj))
      exact key orig p.attrs j hok ha
    · intro hst'; simp [hs] at hst'
  | deflDone i p hp hs =>
    exact inv_set (x := []) (by simp) h i _ (h.ok p (List.mem_of_getElem? hp)) (by simp)
  | inflAttr i j p a a' hp hs ha hd =>
    refine inv_set (x := []) (by simp) h i _ ?_ (by simp [hs])
    exact attrsOk_set (h.ok p (List.mem_of_getElem? hp)) ha (inflateAttr_ok hd).1
  | inflDone i p hp hs hall =>
    exact inv_set (x := []) (by simp) h i _ (h.ok p (List.mem_of_getElem? hp)) (fun _ => hall)
  | destAttr i j p a m' hp hs ha hd =>
    have hx := destroyAttr_ok hd
    constructor
    · intro q hq
      exact attrsOk_mono (x := []) (by simpa using hx) (h.ok q hq)
    · exact h.inflated
  | destDone i p hp hs =>
    exact inv_set (x := []) (by simp) h i _ (h.ok p (List.mem_of_getElem? hp)) (by simp)
  | copy i p hp =>
    constructor
    · intro q hq
      rcases List.mem_append.1 hq with hq | hq
      · exact h.ok q hq
      · simp at hq; subst hq
        exact attrsOk_pickle (h.ok p (List.mem_of_getElem? hp))
    · intro q hq
      rcases List.mem_append.1 hq with hq | hq
      · exact h.inflated q hq
      · simp at hq; subst hq
        intro hst a ha id
        obtain ⟨a0, ha0, rfl⟩ := List.mem_map.1 ha
        have := h.inflated p (List.mem_of_getElem? hp) hst a0 ha0
        cases a0 with
        | infl k => exact absurd rfl (this k)
        | view k => simp only [pickleAttr]; split <;> simp
        | arr d => simp [pickleAttr]
        | other d => simp [pickleAttr]

theorem inv_steps {orig : List D} {w w' : World D} (h : Inv orig w) (s : Steps w w') : Inv orig w' := by
  induction s with
  | refl => exact h
  | tail _ s ih => exact inv_step ih s

/-- A freshly loaded pulsar: own arrays (and non-arrays) only. -/
def Fresh (orig : List D) (p : Psr D) : Prop :=
  p.st = .pristine ∧ List.Forall₂ (fun o a => a = .arr o ∨ a = .other o) orig p.attrs

theorem inv_fresh {orig : List D} {p : Psr D} (h : Fresh orig p) (m : Mem D) : Inv orig ⟨m, [p]⟩ := by
  constructor
  · intro q hq
    simp at hq; subst hq
    refine List.Forall₂.imp ?_ h.2
    rintro o a (rfl | rfl) <;> rfl
  · intro q hq hs
    simp at hq; subst hq
    rw [h.1] at hs; cases hs

/-! ## C21 -/

/-- C21 (safety): start one process with one pulsar; let any number of processes copy, deflate,
inflate and destroy, loop body by loop body in any interleaving.  Whatever any process can read in
any attribute is the original value, and a pulsar that reports itself inflated has every
attribute readable — also after the memory was destroyed by another process. -/
theorem C21_safety {orig : List D} {p0 : Psr D} {m0 : Mem D} (h : Fresh orig p0) {w : World D}
    (hw : Steps ⟨m0, [p0]⟩ w) :
    ∀ p ∈ w.psrs, List.Forall₂ (fun o a => (∀ d, seen w.mem a = some d → d = o) ∧
      (p.st = .inflated → seen w.mem a = some o)) orig p.attrs := by
  intro p hp
  have hi := inv_steps (inv_fresh h m0) hw
  have hok := hi.ok p hp
  have hin := hi.inflated p hp
  unfold AttrsOk at hok
  generalize p.attrs = as at *
  clear hp hw h hi
  induction hok with
  | nil => exact List.Forall₂.nil
  | @cons o a orig as h1 h2 ih =>
    refine List.Forall₂.cons ⟨?_, ?_⟩ (ih fun hs a' ha' => hin hs a' (by simp [ha']))
    · intro d hd
      cases a with
      | arr x => simp [seen] at hd; subst hd; exact h1
      | other x => simp [seen] at hd; subst hd; exact h1
      | infl id => simp [seen] at hd
      | view id => simp only [seen, Stands] at hd h1; rw [h1] at hd; cases hd; rfl
    · intro hs
      cases a with
      | arr x => cases h1; rfl
      | other x => cases h1; rfl
      | infl id => exact absurd rfl (hin hs (.infl id) (by simp) id)
      | view id => exact h1

/-- Setting twice. -/
theorem set_set_getElem? {α : Type} {l : List α} {i : Nat} {p : α} (h : l[i]? = some p) (q : α) :
    (l.set i q)[i]? = some q := by
  rw [List.getElem?_set_self]
  exact (List.getElem?_eq_some_iff.1 h).1

theorem steps_trans {w w' w'' : World D} (h : Steps w w') (h' : Steps w' w'') : Steps w w'' := by
  induction h' with
  | refl => exact h
  | tail _ s ih => exact Steps.tail ih s

/-- The loop of `inflate` is made of steps; the prefix `pre` has been done. -/
theorem inflateLoop_steps (fault : Nat → Bool) (m : Mem D) (i : Nat) (rest pre : List (AVal D)) (k : Nat)
    (psrs : List (Psr D)) (hp : psrs[i]? = some ⟨pre ++ rest, .deflated⟩) :
    Steps ⟨m, psrs⟩ ⟨m, psrs.set i ⟨pre ++ (inflateLoop fault m k rest).1, .deflated⟩⟩ := by
  have hrefl : psrs.set i ⟨pre ++ rest, .deflated⟩ = psrs := by
    rw [List.getElem?_eq_some_iff] at hp
    obtain ⟨hi, he⟩ := hp
    rw [← he]; exact List.set_getElem_self hi
  induction rest generalizing pre k psrs with
  | nil => simp only [inflateLoop]; rw [hrefl]; exact Steps.refl _
  | cons a t ih =>
    unfold inflateLoop
    cases h : inflateAttr (fault k) m a with
    | error e => simp only; rw [hrefl]; exact Steps.refl _
    | ok a' =>
      simp only
      have hf : inflateAttr false m a = .ok a' := by
        cases a with
        | infl id =>
          simp only [inflateAttr] at h ⊢
          split at h
          · cases h
          · simpa using h
        | arr d => exact h
        | other d => exact h
        | view id => exact h
      have hset : (pre ++ a :: t).set pre.length a' = pre ++ a' :: t := by
        rw [List.set_append_right _ _ (Nat.le_refl _)]; simp
      have s1 : Step ⟨m, psrs⟩ ⟨m, psrs.set i ⟨pre ++ a' :: t, .deflated⟩⟩ := by
        have := Step.inflAttr ⟨m, psrs⟩ i pre.length ⟨pre ++ a :: t, .deflated⟩ a a' hp rfl (by simp) hf
        rw [hset] at this
        exact this
      have hp' := set_set_getElem? hp (⟨(pre ++ [a']) ++ t, .deflated⟩ : Psr D)
      have hsame : psrs.set i ⟨pre ++ a' :: t, .deflated⟩ = psrs.set i (⟨(pre ++ [a']) ++ t, .deflated⟩ : Psr D) := by
        simp
      rw [hsame] at s1
      have := ih (pre ++ [a']) (k + 1) _ hp' (by simp)
      rw [List.set_set] at this
      refine steps_trans (Steps.tail (Steps.refl _) s1) ?_
      simpa using this

theorem inflateLoop_none {fault : Nat → Bool} {m : Mem D} {k : Nat} {as : List (AVal D)}
    (h : (inflateLoop fault m k as).2 = none) : ∀ a ∈ (inflateLoop fault m k as).1, ∀ id, a ≠ .infl id := by
  induction as generalizing k with
  | nil => simp [inflateLoop]
  | cons a t ih =>
    unfold inflateLoop at h ⊢
    cases hi : inflateAttr (fault k) m a with
    | error e => rw [hi] at h; cases h
    | ok a' =>
      rw [hi] at h
      simp only at h ⊢
      intro b hb
      rcases List.mem_cons.1 hb with rfl | hb
      · exact (inflateAttr_ok hi).2
      · exact ih h b hb

/-- A call of `inflate` by one process, successful or not, is a sequence of steps, so the safety
theorem covers it. -/
theorem C21_inflate_is_steps (fault : Nat → Bool) (w : World D) (i : Nat) (p : Psr D)
    (hp : w.psrs[i]? = some p) :
    Steps w ⟨w.mem, w.psrs.set i (inflate fault w.mem p).1⟩ := by
  obtain ⟨m, psrs⟩ := w
  obtain ⟨as, st⟩ := p
  unfold inflate
  simp only at hp ⊢
  by_cases hs : st = .deflated
  · subst hs
    have h1 := inflateLoop_steps fault m i as [] 0 psrs (by simpa using hp)
    simp only [if_true]
    cases hn : (inflateLoop fault m 0 as).2 with
    | some e => simpa using h1
    | none =>
      refine Steps.tail h1 ?_
      have hp' := set_set_getElem? hp (⟨(inflateLoop fault m 0 as).1, .deflated⟩ : Psr D)
      have := Step.inflDone ⟨m, psrs.set i ⟨(inflateLoop fault m 0 as).1, .deflated⟩⟩ i _ hp' rfl
        (inflateLoop_none hn)
      simpa [List.set_set] using this
  · simp only [hs, if_false]
    rw [List.getElem?_eq_some_iff] at hp
    obtain ⟨hi, he⟩ := hp
    have hr : psrs.set i ⟨as, st⟩ = psrs := by rw [← he]; exact List.set_getElem_self hi
    rw [hr]
    exact Steps.refl _

theorem deflateLoop_steps (fault : Nat → Bool) (m : Mem D) (i : Nat) (rest pre : List (AVal D)) (k : Nat)
    (psrs : List (Psr D)) (hp : psrs[i]? = some ⟨pre ++ rest, .pristine⟩) :
    Steps ⟨m, psrs⟩ ⟨(deflateLoop fault k m rest).1,
      psrs.set i ⟨pre ++ (deflateLoop fault k m rest).2.1, .pristine⟩⟩ := by
  have hrefl : psrs.set i ⟨pre ++ rest, .pristine⟩ = psrs := by
    rw [List.getElem?_eq_some_iff] at hp
    obtain ⟨hi, he⟩ := hp
    rw [← he]; exact List.set_getElem_self hi
  induction rest generalizing pre k psrs m with
  | nil => simp only [deflateLoop]; rw [hrefl]; exact Steps.refl _
  | cons a t ih =>
    unfold deflateLoop
    cases h : deflateAttr (fault k) m a with
    | mk m' r =>
      cases r with
      | error e => simp only; rw [hrefl]; exact Steps.refl _
      | ok a' =>
        simp only
        have hf : deflateAttr false m a = (m', .ok a') := by
          cases a with
          | infl id => exact h
          | other d => exact h
          | arr d =>
            simp only [deflateAttr] at h ⊢
            split at h
            · cases h
            · simpa using h
          | view id =>
            simp only [deflateAttr] at h ⊢
            cases hd : m.objs[id]? with
            | none => rw [hd] at h; cases h
            | some d =>
              rw [hd] at h
              simp only at h ⊢
              split at h
              · cases h
              · simpa using h
        have hset : (pre ++ a :: t).set pre.length a' = pre ++ a' :: t := by
          rw [List.set_append_right _ _ (Nat.le_refl _)]; simp
        have s1 : Step ⟨m, psrs⟩ ⟨m', psrs.set i ⟨pre ++ a' :: t, .pristine⟩⟩ := by
          have := Step.deflAttr ⟨m, psrs⟩ i pre.length ⟨pre ++ a :: t, .pristine⟩ a a' m' hp rfl (by simp) hf
          rw [hset] at this
          exact this
        have hp' := set_set_getElem? hp (⟨(pre ++ [a']) ++ t, .pristine⟩ : Psr D)
        have hsame : psrs.set i ⟨pre ++ a' :: t, .pristine⟩ = psrs.set i (⟨(pre ++ [a']) ++ t, .pristine⟩ : Psr D) := by
          simp
        rw [hsame] at s1
        have := ih m' (pre ++ [a']) (k + 1) _ hp' (by simp)
        rw [List.set_set] at this
        refine steps_trans (Steps.tail (Steps.refl _) s1) ?_
        simpa using this

/-- Likewise `deflate`. -/
theorem C21_deflate_is_steps (fault : Nat → Bool) (w : World D) (i : Nat) (p : Psr D)
    (hp : w.psrs[i]? = some p) :
    Steps w ⟨(deflate fault w.mem p).1, w.psrs.set i (deflate fault w.mem p).2.1⟩ := by
  obtain ⟨m, psrs⟩ := w
  obtain ⟨as, st⟩ := p
  unfold deflate
  simp only at hp ⊢
  by_cases hs : st = .pristine
  · subst hs
    have h1 := deflateLoop_steps fault m i as [] 0 psrs (by simpa using hp)
    simp only [if_true]
    cases hn : (deflateLoop fault 0 m as).2.2 with
    | some e => simpa using h1
    | none =>
      refine Steps.tail h1 ?_
      have hp' := set_set_getElem? hp (⟨(deflateLoop fault 0 m as).2.1, .pristine⟩ : Psr D)
      have := Step.deflDone ⟨(deflateLoop fault 0 m as).1, psrs.set i ⟨(deflateLoop fault 0 m as).2.1, .pristine⟩⟩
        i _ hp' rfl
      simpa [List.set_set] using this
  · simp only [hs, if_false]
    rw [List.getElem?_eq_some_iff] at hp
    obtain ⟨hi, he⟩ := hp
    have hr : psrs.set i ⟨as, st⟩ = psrs := by rw [← he]; exact List.set_getElem_self hi
    rw [hr]
    exact Steps.refl _

theorem destroyLoop_steps (fault : Nat → Bool) (m : Mem D) (i : Nat) (rest : List (AVal D)) (k : Nat)
    (psrs : List (Psr D)) (p : Psr D) (hp : psrs[i]? = some p) (hs : p.st = .deflated)
    (hsub : ∀ a ∈ rest, a ∈ p.attrs) :
    Steps ⟨m, psrs⟩ ⟨(destroyLoop fault k m rest).1, psrs⟩ := by
  induction rest generalizing k m with
  | nil => exact Steps.refl _
  | cons a t ih =>
    unfold destroyLoop
    cases h : destroyAttr (fault k) m a with
    | error e => exact Steps.refl _
    | ok m' =>
      simp only
      have hf : destroyAttr false m a = .ok m' := by
        cases a with
        | infl id =>
          simp only [destroyAttr] at h ⊢
          split at h
          · cases h
          · simpa using h
        | arr d => exact h
        | other d => exact h
        | view id => exact h
      obtain ⟨j, hj, he⟩ := List.getElem_of_mem (hsub a (by simp))
      have s1 := Step.destAttr ⟨m, psrs⟩ i j p a m' hp hs (by rw [List.getElem?_eq_getElem hj, he]) hf
      exact steps_trans (Steps.tail (Steps.refl _) s1) (ih m' (k + 1) fun a ha => hsub a (by simp [ha]))

/-- Likewise `destroy`. -/
theorem C21_destroy_is_steps (fault : Nat → Bool) (w : World D) (i : Nat) (p : Psr D)
    (hp : w.psrs[i]? = some p) :
    Steps w ⟨(destroy fault w.mem p).1, w.psrs.set i (destroy fault w.mem p).2.1⟩ := by
  obtain ⟨m, psrs⟩ := w
  have hi := hp
  rw [List.getElem?_eq_some_iff] at hi
  obtain ⟨hi, he⟩ := hi
  have hr : psrs.set i p = psrs := by rw [← he]; exact List.set_getElem_self hi
  unfold destroy
  simp only at hp ⊢
  by_cases hs : p.st = .deflated
  · simp only [hs, if_true]
    have h1 := destroyLoop_steps fault m i p.attrs 0 psrs p hp hs fun a ha => ha
    cases hn : (destroyLoop fault 0 m p.attrs).2 with
    | some e =>
      simp only [reduceCtorEq, if_false]
      have : ({ attrs := p.attrs, st := .deflated } : Psr D) = p := by cases p; simp_all
      rw [this, hr]; exact h1
    | none =>
      simp only [if_true]
      exact Steps.tail h1 (Step.destDone _ i p hp hs)
  · simp only [hs, if_false]
    rw [hr]; exact Steps.refl _

theorem inflateLoop_linked {m : Mem D} {k : Nat} {as : List (AVal D)} (hl : ∀ id, .infl id ∈ as → id ∈ m.linked) :
    (inflateLoop (fun _ => false) m k as).2 = none := by
  induction as generalizing k with
  | nil => rfl
  | cons a t ih =>
    have iht := ih (k := k + 1) fun id h => hl id (by simp [h])
    unfold inflateLoop
    cases a with
    | infl id => simp [inflateAttr, hl id (by simp), iht]
    | arr d => simp [inflateAttr, iht]
    | other d => simp [inflateAttr, iht]
    | view id => simp [inflateAttr, iht]

/-- C21 (completion): in every reachable world, a deflated pulsar whose shared objects are still
linked inflates without error, reports itself inflated, and shows exactly the original values. -/
theorem C21_inflate_complete {orig : List D} {p0 : Psr D} {m0 : Mem D} (h : Fresh orig p0) {w : World D}
    (hw : Steps ⟨m0, [p0]⟩ w) (i : Nat) (p : Psr D) (hp : w.psrs[i]? = some p) (hs : p.st = .deflated)
    (hl : ∀ id, .infl id ∈ p.attrs → id ∈ w.mem.linked) :
    (inflate (fun _ => false) w.mem p).2 = none ∧
    (inflate (fun _ => false) w.mem p).1.st = .inflated ∧
    (inflate (fun _ => false) w.mem p).1.attrs.map (seen w.mem) = orig.map some := by
  have hn : (inflateLoop (fun _ => false) w.mem 0 p.attrs).2 = none := inflateLoop_linked hl
  have h2 : (inflate (fun _ => false) w.mem p).2 = none := by simp [inflate, hs, hn]
  have h3 : (inflate (fun _ => false) w.mem p).1.st = .inflated := by simp [inflate, hs, hn]
  refine ⟨h2, h3, ?_⟩
  have hst := C21_inflate_is_steps (fun _ => false) w i p hp
  have hmem : (inflate (fun _ => false) w.mem p).1 ∈ w.psrs.set i (inflate (fun _ => false) w.mem p).1 := by
    apply List.mem_of_getElem? (set_set_getElem? hp _)
  have hsafe := C21_safety h (steps_trans hw hst) _ hmem
  simp only at hsafe
  generalize (inflate (fun _ => false) w.mem p).1 = q at *
  have key : ∀ (orig : List D) (as : List (AVal D)), List.Forall₂ (fun o a =>
      (∀ d, seen w.mem a = some d → d = o) ∧ (q.st = .inflated → seen w.mem a = some o)) orig as →
      as.map (seen w.mem) = orig.map some := by
    intro orig as hf
    induction hf with
    | nil => rfl
    | cons h1 h2 ih => simp [h1.2 h3, ih]
  exact key _ _ hsafe

/-- C21: inflating raises `FileNotFoundError` when a shared object is no longer linked, and the
pulsar stays deflated. -/
theorem C21_inflate_unlinked_raises (m : Mem D) (p : Psr D) (hs : p.st = .deflated) (id : Nat)
    (hid : .infl id ∈ p.attrs) (hl : id ∉ m.linked) :
    (inflate (fun _ => false) m p).2 = some .fileNotFoundError ∧
    (inflate (fun _ => false) m p).1.st = .deflated := by
  have key : ∀ (as : List (AVal D)) (k : Nat), .infl id ∈ as →
      (inflateLoop (fun _ => false) m k as).2 = some .fileNotFoundError := by
    intro as
    induction as with
    | nil => intro k h; simp at h
    | cons a t ih =>
      intro k hmem
      unfold inflateLoop
      cases a with
      | infl id' =>
        simp only [inflateAttr, Bool.false_eq_true, if_false]
        by_cases hl' : id' ∈ m.linked
        · simp only [hl', if_true]
          rcases List.mem_cons.1 hmem with he | he
          · cases he; exact absurd hl' hl
          · exact ih _ he
        · simp [hl']
      | arr d => simpa [inflateAttr] using ih (k + 1) (by simpa using hmem)
      | other d => simpa [inflateAttr] using ih (k + 1) (by simpa using hmem)
      | view v => simpa [inflateAttr] using ih (k + 1) (by simpa using hmem)
  have := key p.attrs 0 hid
  simp [inflate, hs, this]

/-- Unlinked objects stay unlinked in every execution (names are not reused), and objects are
never removed from memory that is mapped. -/
theorem unlinked_forever {w w' : World D} (h : Steps w w') (id : Nat) (hid : id < w.mem.objs.length)
    (hl : id ∉ w.mem.linked) : id < w'.mem.objs.length ∧ id ∉ w'.mem.linked := by
  induction h with
  | refl => exact ⟨hid, hl⟩
  | @tail w1 w2 _ s ih =>
    obtain ⟨h1, h2⟩ := ih
    cases s with
    | deflAttr i j p a a' m' hp hs ha hd =>
      have halloc : ∀ d, id < (alloc w1.mem d).1.objs.length ∧ id ∉ (alloc w1.mem d).1.linked := by
        intro d
        simp only [alloc, List.length_append, List.length_singleton, List.mem_cons, not_or]
        exact ⟨by omega, by omega, h2⟩
      cases a with
      | arr d => simp only [deflateAttr, Bool.false_eq_true, if_false] at hd; cases hd; exact halloc d
      | view v =>
        simp only [deflateAttr] at hd
        cases hv : w1.mem.objs[v]? with
        | none => rw [hv] at hd; cases hd
        | some d => rw [hv] at hd; simp only [Bool.false_eq_true, if_false] at hd; cases hd; exact halloc d
      | other d => cases hd; exact ⟨h1, h2⟩
      | infl v => cases hd; exact ⟨h1, h2⟩
    | destAttr i j p a m' hp hs ha hd =>
      cases a with
      | infl v =>
        simp only [destroyAttr, Bool.false_eq_true, if_false] at hd
        split at hd
        · cases hd
          exact ⟨h1, fun hh => h2 (List.mem_filter.1 hh).1⟩
        · cases hd
      | arr d => cases hd; exact ⟨h1, h2⟩
      | other d => cases hd; exact ⟨h1, h2⟩
      | view v => cases hd; exact ⟨h1, h2⟩
    | deflDone | inflAttr | inflDone | destDone | copy => exact ⟨h1, h2⟩

theorem destroyLoop_unlinks {m : Mem D} {k : Nat} {as : List (AVal D)} {fault : Nat → Bool}
    (h : (destroyLoop fault k m as).2 = none) :
    (∀ id, .infl id ∈ as → id ∉ (destroyLoop fault k m as).1.linked) ∧
    (∀ id, id ∈ (destroyLoop fault k m as).1.linked → id ∈ m.linked) ∧
    (destroyLoop fault k m as).1.objs = m.objs := by
  induction as generalizing k m with
  | nil => simp [destroyLoop]
  | cons a t ih =>
    unfold destroyLoop at h ⊢
    cases hd : destroyAttr (fault k) m a with
    | error e => rw [hd] at h; cases h
    | ok m' =>
      rw [hd] at h
      simp only at h ⊢
      obtain ⟨h1, h2, h3⟩ := ih h
      refine ⟨?_, ?_, h3.trans (destroyAttr_ok hd)⟩
      · intro id hid
        rcases List.mem_cons.1 hid with e | e
        · subst e
          intro hh
          have := h2 id hh
          simp only [destroyAttr] at hd
          split at hd
          · cases hd
          · split at hd
            · cases hd; simp at this
            · cases hd
        · exact h1 id e
      · intro id hid
        have := h2 id hid
        cases a with
        | infl v =>
          simp only [destroyAttr] at hd
          split at hd
          · cases hd
          · split at hd
            · cases hd; exact (List.mem_filter.1 this).1
            · cases hd
        | arr d => cases hd; exact this
        | other d => cases hd; exact this
        | view v => cases hd; exact this

/-- C21: once one process has destroyed the pulsar, in every later execution every deflated copy
that still refers to one of its shared objects raises `FileNotFoundError` on inflate. -/
theorem C21_inflate_after_destroy_raises (w w' : World D) (i i' : Nat) (p p' : Psr D)
    (_hp : w.psrs[i]? = some p)
    (hs : p.st = .deflated) (hd : (destroy (fun _ => false) w.mem p).2.2 = none) (id : Nat)
    (hid : .infl id ∈ p.attrs) (hid' : id < w.mem.objs.length)
    (hw : Steps ⟨(destroy (fun _ => false) w.mem p).1, w.psrs.set i (destroy (fun _ => false) w.mem p).2.1⟩ w')
    (_hp' : w'.psrs[i']? = some p') (hs' : p'.st = .deflated) (hmem : .infl id ∈ p'.attrs) :
    (inflate (fun _ => false) w'.mem p').2 = some .fileNotFoundError := by
  have hn : (destroyLoop (fun _ => false) 0 w.mem p.attrs).2 = none := by
    simpa [destroy, hs] using hd
  have hm : (destroy (fun _ => false) w.mem p).1 = (destroyLoop (fun _ => false) 0 w.mem p.attrs).1 := by
    simp [destroy, hs]
  obtain ⟨h1, -, h3⟩ := destroyLoop_unlinks hn
  have hun := unlinked_forever hw id (by simp only [hm, h3]; exact hid') (by simp only [hm]; exact h1 id hid)
  exact (C21_inflate_unlinked_raises w'.mem p' hs' id hmem hun.2).1

/-- C21: in the wrong state the three methods do nothing and raise nothing. -/
theorem C21_no_ops (fault : Nat → Bool) (m : Mem D) (p : Psr D) :
    (p.st ≠ .pristine → deflate fault m p = (m, p, none)) ∧
    (p.st ≠ .deflated → inflate fault m p = (p, none)) ∧
    (p.st ≠ .deflated → destroy fault m p = (m, p, none)) := by
  refine ⟨?_, ?_, ?_⟩ <;> intro h <;> simp [deflate, inflate, destroy, h]

/-- The standard life cycle on a concrete pulsar: creator deflates, a user inflates a copy, another
copy destroys, the user still reads. -/
example :
    let p0 : Psr Nat := ⟨[.arr 10, .other 0, .arr 30, .arr 40], .pristine⟩
    let r := deflate (fun _ => false) ⟨[], []⟩ p0
    let user := (inflate (fun _ => false) r.1 (pickle r.1 r.2.1)).1
    let d := destroy (fun _ => false) r.1 (pickle r.1 r.2.1)
    user.attrs.map (seen d.1) = [some 10, some 0, some 30, some 40] ∧ d.1.linked = [] ∧
    (inflate (fun _ => false) d.1 (pickle d.1 r.2.1)).2 = some .fileNotFoundError := by
  decide +kernel

example : Fresh [10, 0, 30, 40] (⟨[.arr 10, .other 0, .arr 30, .arr 40], .pristine⟩ : Psr Nat) := by
  refine ⟨rfl, ?_⟩
  simp

/-! ## C22: retrying after a failure -/

/-- Attributes no loop has to touch any more after deflating. -/
def Deflatable : AVal D → Prop
  | .arr _ => False
  | .view _ => False
  | _ => True

theorem deflateLoop_complete (m : Mem D) (k : Nat) (as : List (AVal D)) (hv : ∀ id, .view id ∉ as) :
    (deflateLoop (fun _ => false) k m as).2.2 = none ∧
    ∀ a ∈ (deflateLoop (fun _ => false) k m as).2.1, Deflatable a := by
  induction as generalizing m k with
  | nil => simp [deflateLoop]
  | cons a t ih =>
    have hvt : ∀ id, .view id ∉ t := fun id h => hv id (by simp [h])
    unfold deflateLoop
    cases a with
    | view id => exact absurd (by simp) (hv id)
    | arr d =>
      simp only [deflateAttr, Bool.false_eq_true, if_false]
      have := ih (alloc m d).1 (k + 1) hvt
      exact ⟨this.1, by simpa [Deflatable] using this.2⟩
    | other d =>
      simp only [deflateAttr]
      have := ih m (k + 1) hvt
      exact ⟨this.1, by simpa [Deflatable] using this.2⟩
    | infl id =>
      simp only [deflateAttr]
      have := ih m (k + 1) hvt
      exact ⟨this.1, by simpa [Deflatable] using this.2⟩

theorem deflateLoop_no_view (fault : Nat → Bool) (m : Mem D) (k : Nat) (as : List (AVal D))
    (hv : ∀ id, .view id ∉ as) : ∀ id, .view id ∉ (deflateLoop fault k m as).2.1 := by
  induction as generalizing m k with
  | nil => simp [deflateLoop]
  | cons a t ih =>
    have hvt : ∀ id, .view id ∉ t := fun id h => hv id (by simp [h])
    unfold deflateLoop
    cases hd : deflateAttr (fault k) m a with
    | mk m' r =>
      cases r with
      | error e => exact hv
      | ok a' =>
        simp only
        intro id hm
        rcases List.mem_cons.1 hm with e | e
        · exact (deflateAttr_ok hd).2.2.2 id e.symm
        · exact ih m' (k + 1) hvt id e

/-- Any number of failed attempts of `deflate`, at any attribute each. -/
def deflateAttempts : List (Nat → Bool) → Mem D → Psr D → Mem D × Psr D
  | [], m, p => (m, p)
  | f :: fs, m, p => deflateAttempts fs (deflate f m p).1 (deflate f m p).2.1

/-- C22: after any number of `deflate` attempts failing anywhere, one more `deflate` completes: no
error, the state is "deflated", no attribute is left as an array, and every attribute stands for
the original data. -/
theorem C22_deflate_retry {orig : List D} {p0 : Psr D} (m0 : Mem D) (h : Fresh orig p0)
    (faults : List (Nat → Bool)) :
    let r := deflateAttempts faults m0 p0
    let q := deflate (fun _ => false) r.1 r.2
    q.2.2 = none ∧ q.2.1.st = .deflated ∧ (∀ a ∈ q.2.1.attrs, Deflatable a) ∧
      AttrsOk orig q.1 q.2.1.attrs := by
  intro r q
  -- attempts are steps and keep `no view` and `pristine or deflated`
  have key : ∀ (faults : List (Nat → Bool)) (m : Mem D) (p : Psr D),
      Steps ⟨m0, [p0]⟩ ⟨m, [p]⟩ → (∀ id, .view id ∉ p.attrs) →
      (p.st = .pristine ∨ p.st = .deflated ∧ ∀ a ∈ p.attrs, Deflatable a) →
      Steps ⟨m0, [p0]⟩ ⟨(deflateAttempts faults m p).1, [(deflateAttempts faults m p).2]⟩ ∧
      (∀ id, .view id ∉ (deflateAttempts faults m p).2.attrs) ∧
      ((deflateAttempts faults m p).2.st = .pristine ∨ (deflateAttempts faults m p).2.st = .deflated ∧
        ∀ a ∈ (deflateAttempts faults m p).2.attrs, Deflatable a) := by
    intro faults
    induction faults with
    | nil => intro m p h1 h2 h3; exact ⟨h1, h2, h3⟩
    | cons f fs ih =>
      intro m p h1 h2 h3
      apply ih
      · have := C21_deflate_is_steps f ⟨m, [p]⟩ 0 p rfl
        exact steps_trans h1 this
      · rcases h3 with h3 | ⟨h3, h4⟩
        · simp only [deflate, h3, if_true]; exact deflateLoop_no_view f m 0 p.attrs h2
        · rw [(C21_no_ops f m p).1 (by rw [h3]; simp)]; exact h2
      · rcases h3 with h3 | ⟨h3, h4⟩
        · simp only [deflate, h3, if_true]
          cases hn : (deflateLoop f 0 m p.attrs).2.2 with
          | some e => left; simp
          | none =>
            right
            refine ⟨by simp, ?_⟩
            have hdone : ∀ (as : List (AVal D)) (k : Nat) (m : Mem D), (deflateLoop f k m as).2.2 = none →
                ∀ a ∈ (deflateLoop f k m as).2.1, Deflatable a := by
              intro as
              induction as with
              | nil => intro k m _; simp [deflateLoop]
              | cons a t ih =>
                intro k m hh
                unfold deflateLoop at hh ⊢
                cases hd : deflateAttr (f k) m a with
                | mk m' r =>
                  cases r with
                  | error e => rw [hd] at hh; cases hh
                  | ok a' =>
                    rw [hd] at hh
                    simp only at hh ⊢
                    intro b hb
                    rcases List.mem_cons.1 hb with rfl | hb
                    · have := (deflateAttr_ok hd).2.2
                      cases b with
                      | arr d => exact absurd rfl (this.1 d)
                      | view d => exact absurd rfl (this.2 d)
                      | other d => trivial
                      | infl d => trivial
                    · exact ih _ _ hh b hb
            exact hdone p.attrs 0 m hn
        · right
          rw [(C21_no_ops f m p).1 (by rw [h3]; simp)]
          exact ⟨h3, h4⟩
  have hv0 : ∀ id, .view id ∉ p0.attrs := by
    intro id hm
    have := h.2
    clear key r q h
    generalize p0.attrs = as at *
    induction this with
    | nil => simp at hm
    | cons h1 h2 ih =>
      rcases List.mem_cons.1 hm with e | e
      · subst e; rcases h1 with h1 | h1 <;> cases h1
      · exact ih e
  obtain ⟨h1, h2, h3⟩ := key faults m0 p0 (Steps.refl _) hv0 (Or.inl h.1)
  have hsteps : Steps ⟨m0, [p0]⟩ ⟨q.1, [q.2.1]⟩ :=
    steps_trans h1 (C21_deflate_is_steps (fun _ => false) ⟨r.1, [r.2]⟩ 0 r.2 rfl)
  have hok : AttrsOk orig q.1 q.2.1.attrs := (inv_steps (inv_fresh h m0) hsteps).ok q.2.1 (by simp)
  rcases h3 with h3 | ⟨h3, h4⟩
  · have hc := deflateLoop_complete r.1 0 r.2.attrs h2
    have e : deflate (fun _ => false) r.1 r.2 = ((deflateLoop (fun _ => false) 0 r.1 r.2.attrs).1,
        ⟨(deflateLoop (fun _ => false) 0 r.1 r.2.attrs).2.1, .deflated⟩, none) := by
      have h3' : r.2.st = .pristine := h3
      simp [deflate, h3', hc.1]
    refine ⟨?_, ?_, ?_, hok⟩
    · show (deflate (fun _ => false) r.1 r.2).2.2 = none
      rw [e]
    · show (deflate (fun _ => false) r.1 r.2).2.1.st = .deflated
      rw [e]
    · show ∀ a ∈ (deflate (fun _ => false) r.1 r.2).2.1.attrs, Deflatable a
      rw [e]; exact hc.2
  · have e : deflate (fun _ => false) r.1 r.2 = (r.1, r.2, none) :=
      (C21_no_ops _ _ _).1 (by rw [show r.2.st = .deflated from h3]; simp)
    refine ⟨?_, ?_, ?_, hok⟩
    · show (deflate (fun _ => false) r.1 r.2).2.2 = none
      rw [e]
    · show (deflate (fun _ => false) r.1 r.2).2.1.st = .deflated
      rw [e]; exact h3
    · show ∀ a ∈ (deflate (fun _ => false) r.1 r.2).2.1.attrs, Deflatable a
      rw [e]; exact h4

/-- Any number of attempts of `inflate` while the memory is unchanged. -/
def inflateAttempts (m : Mem D) : List (Nat → Bool) → Psr D → Psr D
  | [], p => p
  | f :: fs, p => inflateAttempts m fs (inflate f m p).1

theorem inflateLoop_again (fault : Nat → Bool) (m : Mem D) (k k' : Nat) (as : List (AVal D)) :
    inflateLoop (fun _ => false) m k' (inflateLoop fault m k as).1 = inflateLoop (fun _ => false) m k' as := by
  induction as generalizing k k' with
  | nil => rfl
  | cons a t ih =>
    rw [inflateLoop]
    cases h : inflateAttr (fault k) m a with
    | error e => rfl
    | ok a' =>
      simp only
      rw [inflateLoop, inflateLoop]
      have h1 : inflateAttr false m a' = .ok a' := by
        cases a' with
        | infl id => exact absurd rfl ((inflateAttr_ok h).2 id)
        | arr d => rfl
        | other d => rfl
        | view d => rfl
      have h2 : inflateAttr false m a = .ok a' := by
        cases a with
        | infl id =>
          simp only [inflateAttr] at h ⊢
          split at h
          · cases h
          · simpa using h
        | arr d => exact h
        | other d => exact h
        | view id => exact h
      rw [h1, h2]
      simp only [ih (k + 1) (k' + 1)]

/-- C22: after any number of `inflate` attempts that fail anywhere for transient reasons, one more
`inflate` gives exactly the pulsar (and error) a single undisturbed `inflate` would have given. -/
theorem C22_inflate_retry (m : Mem D) (p : Psr D) (faults : List (Nat → Bool)) :
    (inflate (fun _ => false) m (inflateAttempts m faults p)).1 = (inflate (fun _ => false) m p).1 ∧
    (p.st = .deflated → (inflateAttempts m faults p).st = .deflated →
      (inflate (fun _ => false) m (inflateAttempts m faults p)).2 = (inflate (fun _ => false) m p).2) := by
  induction faults generalizing p with
  | nil => exact ⟨rfl, fun _ _ => rfl⟩
  | cons f fs ih =>
    simp only [inflateAttempts]
    by_cases hs : p.st = .deflated
    · have hq : (inflate f m p).1 = ⟨(inflateLoop f m 0 p.attrs).1,
          if (inflateLoop f m 0 p.attrs).2 = none then .inflated else .deflated⟩ := by
        simp [inflate, hs]
      have hsame : (inflate (fun _ => false) m (inflate f m p).1).1 = (inflate (fun _ => false) m p).1 ∧
          ((inflate f m p).1.st = .deflated →
            (inflate (fun _ => false) m (inflate f m p).1).2 = (inflate (fun _ => false) m p).2) := by
        cases hn : (inflateLoop f m 0 p.attrs).2 with
        | some e =>
          rw [hq, hn]
          simp [inflate, hs, inflateLoop_again]
        | none =>
          rw [hq, hn]
          simp only [if_true, reduceCtorEq, false_implies, and_true]
          have hfix : inflateLoop (fun _ => false) m 0 p.attrs = ((inflateLoop f m 0 p.attrs).1, none) := by
            have hg : ∀ (as : List (AVal D)) (k k' : Nat), (inflateLoop f m k as).2 = none →
                inflateLoop (fun _ => false) m k' as = ((inflateLoop f m k as).1, none) := by
              intro as
              induction as with
              | nil => intro k k' _; rfl
              | cons a t ih =>
                intro k k' hh
                rw [inflateLoop] at hh
                cases h : inflateAttr (f k) m a with
                | error e => rw [h] at hh; cases hh
                | ok a' =>
                  rw [h] at hh
                  simp only at hh
                  have h2 : inflateAttr false m a = .ok a' := by
                    cases a with
                    | infl id =>
                      simp only [inflateAttr] at h ⊢
                      split at h
                      · cases h
                      · simpa using h
                    | arr d => exact h
                    | other d => exact h
                    | view id => exact h
                  rw [inflateLoop, inflateLoop, h, h2]
                  simp only [ih (k + 1) (k' + 1) hh]
            exact hg p.attrs 0 0 hn
          simp [inflate, hs, hfix]
      refine ⟨(ih _).1.trans hsame.1, ?_⟩
      intro _ hd
      have hstq : (inflate f m p).1.st = .deflated := by
        by_contra hc
        have hnoop : ∀ (fs : List (Nat → Bool)) (q : Psr D), q.st ≠ .deflated → inflateAttempts m fs q = q := by
          intro fs
          induction fs with
          | nil => intro q _; rfl
          | cons g gs ih2 =>
            intro q hq
            simp only [inflateAttempts]
            rw [(C21_no_ops g m q).2.1 hq]
            exact ih2 q hq
        rw [hnoop fs _ hc] at hd
        exact hc hd
      exact ((ih _).2 hstq hd).trans (hsame.2 hstq)
    · have := (C21_no_ops f m p).2.1 hs
      rw [this]
      exact ih p

/-! ## C23: destroy -/

/-- C23 is false: if `destroy` fails after at least one shared object was unlinked, then every retry
raises `FileNotFoundError` and frees nothing, for ever: the remaining objects stay linked. -/
theorem C23_destroy_retry_false (m : Mem D) (p : Psr D) (hs : p.st = .deflated) (pre : List (AVal D))
    (id : Nat) (rest : List (AVal D)) (hp : p.attrs = pre ++ .infl id :: rest)
    (hpre : ∀ a ∈ pre, ∀ i, a ≠ .infl i) (hl : id ∉ m.linked) (n : Nat) :
    (Nat.rec (m, p, none) (fun _ s => destroy (fun _ => false) s.1 s.2.1) (n + 1) :
      Mem D × Psr D × Option PyErr) = (m, p, some .fileNotFoundError) := by
  have hloop : ∀ (pre : List (AVal D)) (k : Nat), (∀ a ∈ pre, ∀ i, a ≠ .infl i) →
      destroyLoop (fun _ => false) k m (pre ++ .infl id :: rest) = (m, some .fileNotFoundError) := by
    intro pre
    induction pre with
    | nil => intro k _; simp [destroyLoop, destroyAttr, hl]
    | cons a t ih =>
      intro k h
      have ht := ih (k + 1) fun b hb => h b (by simp [hb])
      cases a with
      | infl i => exact absurd rfl (h (.infl i) (by simp) i)
      | arr d => simpa [destroyLoop, destroyAttr] using ht
      | other d => simpa [destroyLoop, destroyAttr] using ht
      | view d => simpa [destroyLoop, destroyAttr] using ht
  have hone : destroy (fun _ => false) m p = (m, p, some .fileNotFoundError) := by
    have hp' : ({ p with st := .deflated } : Psr D) = p := by cases p; simp_all
    simp only [destroy, hs, if_true, hp, hloop pre 0 hpre, reduceCtorEq, if_false]
    rw [← hp, hp']
  induction n with
  | zero => exact hone
  | succ n ih =>
    have h2 : (Nat.rec (m, p, none) (fun _ s => destroy (fun _ => false) s.1 s.2.1) (n + 1 + 1) :
        Mem D × Psr D × Option PyErr) = destroy (fun _ => false)
          (Nat.rec (m, p, none) (fun _ s => destroy (fun _ => false) s.1 s.2.1) (n + 1) :
            Mem D × Psr D × Option PyErr).1
          (Nat.rec (m, p, none) (fun _ s => destroy (fun _ => false) s.1 s.2.1) (n + 1) :
            Mem D × Psr D × Option PyErr).2.1 := rfl
    rw [h2, ih]; exact hone

/-- The situation arises: a deflated pulsar with three arrays, `destroy` failing at the second;
the third array's memory is never freed. -/
example :
    let p : Psr Nat := ⟨[.infl 0, .infl 1, .infl 2], .deflated⟩
    let r := destroy (fun i => i = 1) ⟨[10, 20, 30], [0, 1, 2]⟩ p
    r.2.2 = some .other ∧ r.1.linked = [1, 2] ∧
    (destroy (fun _ => false) r.1 r.2.1).2.2 = some .fileNotFoundError ∧
    (destroy (fun _ => false) r.1 r.2.1).1.linked = [1, 2] := by decide +kernel

/-- C23 (partial): a retry after failures that happened before anything was unlinked, with all
shared objects still linked and distinct, frees them all.  Missing: failures after the first
unlink (`C23_destroy_retry_false`). -/
theorem C23_destroy_retry_partial (m : Mem D) (p : Psr D) (hs : p.st = .deflated)
    (hl : ∀ id, .infl id ∈ p.attrs → id ∈ m.linked)
    (hnd : (p.attrs.filterMap fun a => match a with | .infl id => some id | _ => none).Nodup)
    (fault : Nat → Bool) (hfail : (destroy fault m p).2.2 ≠ none) (hmem : (destroy fault m p).1.linked = m.linked) :
    let r := destroy fault m p
    let q := destroy (fun _ => false) r.1 r.2.1
    q.2.2 = none ∧ q.2.1.st = .destroyed ∧ ∀ id, .infl id ∈ p.attrs → id ∉ q.1.linked := by
  intro r q
  have hr2 : r.2.1 = p := by
    have : (destroyLoop fault 0 m p.attrs).2 ≠ none := by
      simpa [destroy, hs] using hfail
    show (destroy fault m p).2.1 = p
    simp only [destroy, hs, if_true, this, if_false]
    cases p; simp_all
  have hrl : r.1.linked = m.linked := hmem
  have hok : ∀ (as : List (AVal D)) (k : Nat) (m : Mem D), (∀ id, .infl id ∈ as → id ∈ m.linked) →
      (as.filterMap fun a => match a with | .infl id => some id | _ => none).Nodup →
      (destroyLoop (fun _ => false) k m as).2 = none := by
    intro as
    induction as with
    | nil => intro k m _ _; rfl
    | cons a t ih =>
      intro k m h1 h2
      cases a with
      | infl id =>
        simp only [List.filterMap_cons, List.nodup_cons] at h2
        simp only [destroyLoop, destroyAttr, Bool.false_eq_true, if_false, h1 id (by simp), if_true]
        apply ih _ _ _ h2.2
        intro id' hid'
        refine List.mem_filter.2 ⟨h1 id' (by simp [hid']), ?_⟩
        simp only [ne_eq, decide_not, Bool.not_eq_eq_eq_not, Bool.not_true, decide_eq_false_iff_not]
        rintro rfl
        exact h2.1 (List.mem_filterMap.2 ⟨.infl id', hid', rfl⟩)
      | arr d => simpa [destroyLoop, destroyAttr] using ih (k + 1) m (fun id h => h1 id (by simp [h])) (by simpa using h2)
      | other d => simpa [destroyLoop, destroyAttr] using ih (k + 1) m (fun id h => h1 id (by simp [h])) (by simpa using h2)
      | view d => simpa [destroyLoop, destroyAttr] using ih (k + 1) m (fun id h => h1 id (by simp [h])) (by simpa using h2)
  have hn := hok p.attrs 0 r.1 (by rw [hrl]; exact hl) hnd
  have e : q = ((destroyLoop (fun _ => false) 0 r.1 p.attrs).1, { p with st := .destroyed }, none) := by
    show destroy (fun _ => false) r.1 r.2.1 = _
    rw [hr2]; simp [destroy, hs, hn]
  rw [e]
  exact ⟨rfl, rfl, (destroyLoop_unlinks hn).1⟩

end Verif.Inflate
