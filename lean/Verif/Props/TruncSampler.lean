import Mathlib.Data.List.Count
import Mathlib.Algebra.Order.Field.Rat
import Verif.Model.Priors

/-!
# The rejection sampler of TruncNormal

C64.
-/

set_option linter.unusedSectionVars false

namespace Verif.Priors

open Verif

variable {K : Type} [Field K] [LinearOrder K]

/-- Entry `i` of an argument that is a number or a vector. -/
def Arr.entry : Arr K → ℕ → K
  | .num x, _ => x
  | .vec xs, i => xs.getD i 0

/-- A number, or a vector of length `n`. -/
def Fits (n : ℕ) : Arr K → Prop
  | .num _ => True
  | .vec xs => xs.length = n

/-- A vector. -/
def IsVec : Arr K → Prop
  | .num _ => False
  | .vec _ => True

/-- Without a size there are as many draws as the vectors have components. -/
theorem drawLen_of {n : ℕ} {mu sigma : Arr K} (hm : Fits n mu) (hs : Fits n sigma) (h : IsVec mu ∨ IsVec sigma) : drawLen mu sigma = some n := by
  cases mu <;> cases sigma <;> simp_all [IsVec, Fits, drawLen]

/-! ## Masks -/

/-- The number of marked positions before `i`. -/
def rank (mask : List Bool) (i : ℕ) : ℕ := (mask.take i).count true

theorem rank_zero (mask : List Bool) : rank mask 0 = 0 := rfl

theorem rank_cons (b : Bool) (bs : List Bool) (i : ℕ) :
    rank (b :: bs) (i + 1) = rank bs i + if b then 1 else 0 := by
  cases b <;> simp [rank]

theorem rank_lt (mask : List Bool) : ∀ i, mask[i]? = some true → rank mask i < mask.count true := by
  induction mask with
  | nil => intro i h; simp at h
  | cons b bs ih =>
    intro i h
    cases i with
    | zero =>
      simp only [List.getElem?_cons_zero, Option.some.injEq] at h
      subst h; simp [rank_zero]
    | succ i =>
      simp only [List.getElem?_cons_succ] at h
      have := ih i h
      rw [rank_cons]
      cases b <;> simp <;> omega

theorem rank_inj (mask : List Bool) : ∀ i j, mask[i]? = some true → mask[j]? = some true →
    rank mask i = rank mask j → i = j := by
  induction mask with
  | nil => intro i j h; simp at h
  | cons b bs ih =>
    intro i j hi hj h
    cases i with
    | zero =>
      cases j with
      | zero => rfl
      | succ j =>
        simp only [List.getElem?_cons_zero, Option.some.injEq] at hi
        subst hi
        rw [rank_zero, rank_cons] at h; simp at h
    | succ i =>
      cases j with
      | zero =>
        simp only [List.getElem?_cons_zero, Option.some.injEq] at hj
        subst hj
        rw [rank_zero, rank_cons] at h; simp at h
      | succ j =>
        rw [rank_cons, rank_cons] at h
        rw [ih i j hi hj (by omega)]

theorem rank_surj (mask : List Bool) : ∀ k, k < mask.count true → ∃ i, mask[i]? = some true ∧ rank mask i = k := by
  induction mask with
  | nil => intro k h; simp at h
  | cons b bs ih =>
    intro k h
    cases b with
    | false =>
      obtain ⟨i, h1, h2⟩ := ih k (by simpa using h)
      exact ⟨i + 1, by simpa using h1, by rw [rank_cons, h2]; simp⟩
    | true =>
      cases k with
      | zero => exact ⟨0, rfl, rfl⟩
      | succ k =>
        obtain ⟨i, h1, h2⟩ := ih k (by simpa using h)
        exact ⟨i + 1, by simpa using h1, by rw [rank_cons, h2]; simp⟩

theorem put_length (xs : List K) : ∀ (mask : List Bool) (new : List K), (put xs mask new).length = xs.length := by
  induction xs with
  | nil => intro mask new; cases mask <;> rfl
  | cons x xs ih =>
    intro mask new
    cases mask with
    | nil => rfl
    | cons b bs =>
      cases b with
      | false => simp [put, ih]
      | true => cases new <;> simp [put, ih]

theorem put_get (xs : List K) : ∀ (mask : List Bool) (new : List K), mask.length = xs.length →
    new.length = mask.count true → ∀ i, i < xs.length →
    (put xs mask new)[i]? = if mask[i]? = some true then new[rank mask i]? else xs[i]? := by
  induction xs with
  | nil => intro mask new _ _ i hi; simp at hi
  | cons x xs ih =>
    intro mask new hl hn i hi
    cases mask with
    | nil => simp at hl
    | cons b bs =>
      simp only [List.length_cons, Nat.add_right_cancel_iff] at hl
      cases b with
      | false =>
        cases i with
        | zero => simp [put]
        | succ i =>
          have := ih bs new hl (by simpa using hn) i (by simpa using hi)
          simp [put, this, rank_cons]
      | true =>
        cases new with
        | nil => simp at hn
        | cons y ys =>
          cases i with
          | zero => simp [put, rank_zero]
          | succ i =>
            have := ih bs ys hl (by simpa using hn) i (by simpa using hi)
            simp [put, this, rank_cons]

theorem pick_length (xs : List K) : ∀ (mask : List Bool), xs.length = mask.length →
    (pick xs mask).length = mask.count true := by
  induction xs with
  | nil => intro mask h; cases mask <;> simp_all [pick]
  | cons x xs ih =>
    intro mask h
    cases mask with
    | nil => simp at h
    | cons b bs =>
      have := ih bs (by simpa using h)
      cases b <;> simp [pick, this]

theorem pick_get (xs : List K) : ∀ (mask : List Bool), xs.length = mask.length → ∀ i, mask[i]? = some true →
    (pick xs mask)[rank mask i]? = xs[i]? := by
  induction xs with
  | nil => intro mask h i hi; cases mask <;> simp_all
  | cons x xs ih =>
    intro mask h i hi
    cases mask with
    | nil => simp at h
    | cons b bs =>
      have := ih bs (by simpa using h)
      cases i with
      | zero =>
        simp only [List.getElem?_cons_zero, Option.some.injEq] at hi
        subst hi; simp [pick, rank_zero]
      | succ i =>
        have := this i (by simpa using hi)
        cases b <;> simp [pick, rank_cons, this]

theorem rank_all (mask : List Bool) (h : mask.count true = mask.length) (i : ℕ) (hi : i < mask.length) :
    rank mask i = i := by
  have h1 : ∀ b ∈ mask, b = true := by
    intro b hb
    have := List.count_eq_length.1 h b hb
    exact this.symm
  have : (mask.take i).count true = (mask.take i).length :=
    List.count_eq_length.2 fun b hb => (h1 b (List.mem_of_mem_take hb)).symm
  rw [rank, this, List.length_take]; omega

/-! ## The out-of-range mask -/

theorem map2_fits {β : Type} (f : K → K → β) (xs : List K) (a : Arr K) (h : Fits xs.length a) :
    ∃ m : List β, Arr.map2 f (.vec xs) a = .ok (.vec m) ∧ m.length = xs.length ∧
      ∀ i, i < xs.length → m[i]? = some (f (xs.getD i 0) (a.entry i)) := by
  cases a with
  | num y =>
    refine ⟨xs.map (f · y), rfl, by simp, ?_⟩
    intro i hi
    simp [hi, Arr.entry]
  | vec ys =>
    have h' : ys.length = xs.length := h
    refine ⟨List.zipWith f xs ys, by simp only [Arr.map2, if_pos h'.symm], by simp [h'], ?_⟩
    intro i hi
    have hi2 : i < ys.length := by omega
    simp [hi, hi2, Arr.entry]

theorem outMask_spec (xs : List K) (lo hi : Arr K) (hlo : Fits xs.length lo) (hhi : Fits xs.length hi) :
    ∃ m, outMask xs lo hi = .ok m ∧ m.length = xs.length ∧
      ∀ i, i < xs.length → m[i]? = some (decide (hi.entry i < xs.getD i 0) || decide (xs.getD i 0 < lo.entry i)) := by
  obtain ⟨m1, e1, l1, g1⟩ := map2_fits (fun s b => decide (b < s)) xs hi hhi
  obtain ⟨m2, e2, l2, g2⟩ := map2_fits (fun s a => decide (s < a)) xs lo hlo
  refine ⟨List.zipWith (fun p q => p || q) m1 m2, ?_, by simp [l1, l2], ?_⟩
  · unfold outMask
    rw [e1, e2]
    show (Arr.map2 _ (Arr.vec m1) (Arr.vec m2)).bind _ = _
    simp only [Arr.map2, if_pos (l1.trans l2.symm)]
    rfl
  · intro i hi'
    rw [List.getElem?_zipWith, g1 i hi', g2 i hi']

/-! ## Draws -/

theorem drawVec_spec (z : ℕ → K) (r : ℕ) (mu sigma : Arr K) (n : ℕ) (new : List K)
    (h : drawVec z r mu sigma n = .ok new) (hm : Fits n mu) (hs : Fits n sigma) :
    new.length = n ∧ ∀ k, k < n → new[k]? = some (mu.entry k + sigma.entry k * z (r + k)) := by
  unfold drawVec at h
  split_ifs at h
  injection h with h
  subst h
  refine ⟨by simp, fun k hk => ?_⟩
  have e : ∀ a : Arr K, Fits n a → drawAt k a = a.entry k := by
    intro a ha
    cases a with
    | num x => rfl
    | vec xs =>
      have hl : xs.length = n := ha
      show (if xs.length = 1 then xs.getD 0 0 else xs.getD k 0) = xs.getD k 0
      split_ifs with h1
      · have : k = 0 := by omega
        rw [this]
      · rfl
  rw [List.getElem?_map, List.getElem?_range hk]
  simp only [Option.map_some]
  rw [e mu hm, e sigma hs]

/-- The values drawn for the marked components are draws of those components. -/
theorem redraw_spec (z : ℕ → K) (r : ℕ) (mu sigma : Arr K) (mask : List Bool) (new : List K)
    (h : redraw z r mu sigma mask = .ok new) (hm : Fits mask.length mu) (hs : Fits mask.length sigma) :
    new.length = mask.count true ∧ ∀ i, mask[i]? = some true →
      new[rank mask i]? = some (mu.entry i + sigma.entry i * z (r + rank mask i)) := by
  cases mu with
  | vec xs =>
    have hx : xs.length = mask.length := hm
    unfold redraw at h
    simp only [pickArr, if_pos hx] at h
    cases sigma with
    | num s => simp only [bind, Except.bind] at h; cases h
    | vec ys =>
      have hy : ys.length = mask.length := hs
      simp only [if_pos hy] at h
      change drawVec z r (.vec (pick xs mask)) (.vec (pick ys mask)) (mask.count true) = .ok new at h
      obtain ⟨h1, h2⟩ := drawVec_spec z r _ _ _ _ h (pick_length xs mask hx) (pick_length ys mask hy)
      refine ⟨h1, fun i hi => ?_⟩
      rw [h2 _ (rank_lt mask i hi)]
      have e1 := pick_get xs mask hx i hi
      have e2 := pick_get ys mask hy i hi
      simp only [Arr.entry, List.getD_eq_getElem?_getD, e1, e2]
  | num m =>
    change drawVec z r (.num m) sigma (mask.count true) = .ok new at h
    cases sigma with
    | num s =>
      obtain ⟨h1, h2⟩ := drawVec_spec z r _ _ _ _ h (show Fits _ (Arr.num m) from trivial)
        (show Fits _ (Arr.num s) from trivial)
      exact ⟨h1, fun i hi => h2 _ (rank_lt mask i hi)⟩
    | vec ys =>
      have hy : ys.length = mask.length := hs
      have hcount : ys.length = mask.count true ∨ ys.length = 1 := by
        unfold drawVec at h
        split_ifs at h with h1 h2
        have h3 : drawFits (mask.count true) (.vec ys) = true := by
          have : (drawFits (mask.count true) (Arr.num m) && drawFits (mask.count true) (.vec ys)) = true := by
            simpa using h1
          exact (Bool.and_eq_true_iff.1 this).2
        simpa [drawFits] using h3
      by_cases hn : ys.length = mask.count true
      · obtain ⟨h1, h2⟩ := drawVec_spec z r _ _ _ _ h (show Fits _ (Arr.num m) from trivial) hn
        refine ⟨h1, fun i hi => ?_⟩
        have hi' : i < mask.length := (List.getElem?_eq_some_iff.1 hi).1
        rw [h2 _ (rank_lt mask i hi), rank_all mask (by omega) i hi']
      · have h1 : ys.length = 1 := hcount.resolve_left hn
        have hc : mask.count true = 0 := by
          have := List.count_le_length (a := true) (l := mask)
          omega
        unfold drawVec at h
        split_ifs at h
        injection h with h
        subst h
        refine ⟨by simp, fun i hi => ?_⟩
        have := rank_lt mask i hi
        omega

/-! ## The loop -/

/-- What is known of a run of rejection sampling that has used the draws `0 … r-1` of the stream:
component `i` has used the draws `H i`, in this order; `val i j` is the value that draw `j` gives for it. -/
structure History (n r : ℕ) (val : ℕ → ℕ → K) (out : ℕ → K → Prop) (samp : List K) (H : ℕ → List ℕ) : Prop where
  size : samp.length = n
  /-- the components share the draws among themselves, each draw going to one component -/
  owner : ∀ j, j < r ↔ ∃ i, i < n ∧ j ∈ H i
  disjoint : ∀ i i' j, i < n → i' < n → j ∈ H i → j ∈ H i' → i = i'
  ordered : ∀ i, i < n → (H i).Pairwise (· < ·)
  /-- the value of a component is its last draw, the earlier ones having been out of range -/
  last : ∀ i, i < n → ∃ l t, H i = l ++ [t] ∧ samp[i]? = some (val i t) ∧ ∀ j ∈ l, out i (val i j)

theorem loopVec_spec (z : ℕ → K) (mu sigma lo hi : Arr K) (n : ℕ) (hm : Fits n mu) (hs : Fits n sigma)
    (hlo : Fits n lo) (hhi : Fits n hi) : ∀ (fuel r : ℕ) (samp ys : List K) (H : ℕ → List ℕ),
    History n r (fun i j => mu.entry i + sigma.entry i * z j) (fun i x => hi.entry i < x ∨ x < lo.entry i) samp H →
    loopVec z mu sigma lo hi fuel r samp = .ok (some ys) →
    ∃ r' H', r ≤ r' ∧ History n r' (fun i j => mu.entry i + sigma.entry i * z j)
        (fun i x => hi.entry i < x ∨ x < lo.entry i) ys H' ∧
      (∀ i, i < n → lo.entry i ≤ ys.getD i 0 ∧ ys.getD i 0 ≤ hi.entry i) ∧
      ∀ i, i < n → lo.entry i ≤ samp.getD i 0 → samp.getD i 0 ≤ hi.entry i → ys[i]? = samp[i]? := by
  intro fuel
  induction fuel with
  | zero =>
    intro r samp ys H hH h
    obtain ⟨m, e, l, g⟩ := outMask_spec samp lo hi (by rw [hH.size]; exact hlo) (by rw [hH.size]; exact hhi)
    rw [loopVec, e] at h
    change (if m.any id = true then Except.ok none else Except.ok (some samp)) = _ at h
    split_ifs at h with hany
    · simp at h
    · simp only [Except.ok.injEq, Option.some.injEq] at h
      subst h
      refine ⟨r, H, le_rfl, hH, ?_, fun _ _ _ _ => rfl⟩
      intro i hi'
      have hi2 : i < samp.length := by rw [hH.size]; exact hi'
      have := g i hi2
      have hf : m[i]? ≠ some true := by
        intro hc
        apply hany
        rw [List.any_eq_true]
        exact ⟨true, List.mem_of_getElem? hc, rfl⟩
      rw [this] at hf
      simp only [ne_eq, Option.some.injEq, Bool.or_eq_true, decide_eq_true_eq, not_or, not_lt] at hf
      exact ⟨hf.2, hf.1⟩
  | succ fuel ih =>
    intro r samp ys H hH h
    obtain ⟨m, e, l, g⟩ := outMask_spec samp lo hi (by rw [hH.size]; exact hlo) (by rw [hH.size]; exact hhi)
    rw [loopVec, e] at h
    change (if m.any id = true then (if m.length = samp.length then
        (redraw z r mu sigma m).bind fun new => loopVec z mu sigma lo hi fuel (r + m.count true) (put samp m new)
      else Except.error PyErr.indexError) else Except.ok (some samp)) = _ at h
    split_ifs at h with hany
    · cases hr : redraw z r mu sigma m with
      | error e => rw [hr] at h; cases h
      | ok new =>
        rw [hr] at h
        change loopVec z mu sigma lo hi fuel (r + m.count true) (put samp m new) = _ at h
        have hlm : m.length = n := l.trans hH.size
        obtain ⟨n1, n2⟩ := redraw_spec z r mu sigma m new hr (by rw [hlm]; exact hm) (by rw [hlm]; exact hs)
        have hput := put_get samp m new l n1
        have hH' : History n (r + m.count true) (fun i j => mu.entry i + sigma.entry i * z j)
            (fun i x => hi.entry i < x ∨ x < lo.entry i) (put samp m new)
            (fun i => if m[i]? = some true then H i ++ [r + rank m i] else H i) := by
          constructor
          · rw [put_length, hH.size]
          · intro j
            constructor
            · intro hj
              by_cases hjr : j < r
              · obtain ⟨i, hi1, hi2⟩ := (hH.owner j).1 hjr
                refine ⟨i, hi1, ?_⟩
                split_ifs <;> simp [hi2]
              · obtain ⟨i, hi1, hi2⟩ := rank_surj m (j - r) (by omega)
                have : i < m.length := (List.getElem?_eq_some_iff.1 hi1).1
                refine ⟨i, by omega, ?_⟩
                rw [if_pos hi1, hi2]
                have : r + (j - r) = j := by omega
                simp [this]
            · rintro ⟨i, hi1, hi2⟩
              split_ifs at hi2 with hc
              · rcases List.mem_append.1 hi2 with h1 | h1
                · have := (hH.owner j).2 ⟨i, hi1, h1⟩; omega
                · have := rank_lt m i hc
                  simp only [List.mem_singleton] at h1; omega
              · have := (hH.owner j).2 ⟨i, hi1, hi2⟩; omega
          · intro i i' j hin hin' h1 h2
            have bound : ∀ i, i < n → j ∈ H i → j < r := fun i hi' hj => (hH.owner j).2 ⟨i, hi', hj⟩
            split_ifs at h1 h2 with c1 c2 c2
            · rcases List.mem_append.1 h1 with a1 | a1 <;> rcases List.mem_append.1 h2 with a2 | a2
              · exact hH.disjoint i i' j hin hin' a1 a2
              · have := bound i hin a1; simp only [List.mem_singleton] at a2; omega
              · have := bound i' hin' a2; simp only [List.mem_singleton] at a1; omega
              · simp only [List.mem_singleton] at a1 a2
                exact rank_inj m i i' c1 c2 (by omega)
            · rcases List.mem_append.1 h1 with a1 | a1
              · exact hH.disjoint i i' j hin hin' a1 h2
              · have := bound i' hin' h2; simp only [List.mem_singleton] at a1; omega
            · rcases List.mem_append.1 h2 with a2 | a2
              · exact hH.disjoint i i' j hin hin' h1 a2
              · have := bound i hin h1; simp only [List.mem_singleton] at a2; omega
            · exact hH.disjoint i i' j hin hin' h1 h2
          · intro i hin
            show List.Pairwise (· < ·) (if m[i]? = some true then H i ++ [r + rank m i] else H i)
            split_ifs with hc
            · refine List.pairwise_append.2 ⟨hH.ordered i hin, List.pairwise_singleton _ _, ?_⟩
              intro a ha b hb
              have : i < m.length := (List.getElem?_eq_some_iff.1 hc).1
              have := (hH.owner a).2 ⟨i, by omega, ha⟩
              simp only [List.mem_singleton] at hb; omega
            · exact hH.ordered i hin
          · intro i hi'
            have his : i < samp.length := by rw [hH.size]; exact hi'
            obtain ⟨l0, t, e1, e2, e3⟩ := hH.last i hi'
            rw [hput i his]
            by_cases hc : m[i]? = some true
            · refine ⟨l0 ++ [t], r + rank m i, by simp [hc, e1], by rw [if_pos hc, n2 i hc], ?_⟩
              intro j hj
              rcases List.mem_append.1 hj with a | a
              · exact e3 j a
              · simp only [List.mem_singleton] at a
                subst a
                have := g i his
                rw [hc, List.getD_eq_getElem?_getD, e2] at this
                simpa using this.symm
            · exact ⟨l0, t, by simp [hc, e1], by rw [if_neg hc, e2], e3⟩
        obtain ⟨r', H', h1, h2, h3, h4⟩ := ih _ _ _ _ hH' h
        refine ⟨r', H', by omega, h2, h3, ?_⟩
        intro i hi' hl hu
        have his : i < samp.length := by rw [hH.size]; exact hi'
        have hc : m[i]? ≠ some true := by
          rw [g i his]
          simp only [ne_eq, Option.some.injEq, Bool.or_eq_true, decide_eq_true_eq, not_or, not_lt]
          exact ⟨hu, hl⟩
        have hp : (put samp m new)[i]? = samp[i]? := by rw [hput i his, if_neg hc]
        rw [h4 i hi' (by rw [List.getD_eq_getElem?_getD, hp, ← List.getD_eq_getElem?_getD]; exact hl)
          (by rw [List.getD_eq_getElem?_getD, hp, ← List.getD_eq_getElem?_getD]; exact hu), hp]
    · simp only [Except.ok.injEq, Option.some.injEq] at h
      subst h
      refine ⟨r, H, le_rfl, hH, ?_, fun _ _ _ _ => rfl⟩
      intro i hi'
      have hi2 : i < samp.length := by rw [hH.size]; exact hi'
      have := g i hi2
      have hf : m[i]? ≠ some true := by
        intro hc
        apply hany
        rw [List.any_eq_true]
        exact ⟨true, List.mem_of_getElem? hc, rfl⟩
      rw [this] at hf
      simp only [ne_eq, Option.some.injEq, Bool.or_eq_true, decide_eq_true_eq, not_or, not_lt] at hf
      exact ⟨hf.2, hf.1⟩

theorem drawVec_history (z : ℕ → K) (mu sigma : Arr K) (n : ℕ) (out : ℕ → K → Prop) (xs : List K)
    (h : drawVec z 0 mu sigma n = .ok xs) (hm : Fits n mu) (hs : Fits n sigma) :
    History n n (fun i j => mu.entry i + sigma.entry i * z j) out xs (fun i => [i]) := by
  obtain ⟨h1, h2⟩ := drawVec_spec z 0 mu sigma n xs h hm hs
  constructor
  · exact h1
  · intro j
    constructor
    · intro hj; exact ⟨j, hj, by simp⟩
    · rintro ⟨i, hi, hj⟩; simp only [List.mem_singleton] at hj; omega
  · intro i i' j _ _ h1 h2
    simp only [List.mem_singleton] at h1 h2; omega
  · intro i _; exact List.pairwise_singleton _ _
  · intro i hi
    exact ⟨[], i, rfl, by rw [h2 i hi, Nat.zero_add], by simp⟩

/-- **C64**: whatever the stream of normal draws, a vector returned by `TruncNormalSampler` has every
component in its own range, and it is what rejection sampling gives: the draws used are shared out among
the components, the value of a component is the first of its own draws (with its own `mu` and `sigma`)
that is in range, so that a component already in range after the first pass is never drawn again. -/
theorem C64_vector (z : ℕ → K) (mu sigma lo hi : Arr K) (size : Option ℕ) (fuel n : ℕ) (y : Arr K)
    (hn : size = some n ∨ (size = none ∧ (IsVec mu ∨ IsVec sigma)))
    (hm : Fits n mu) (hs : Fits n sigma) (hlo : Fits n lo) (hhi : Fits n hi)
    (h : truncNormalSampler z mu sigma lo hi size fuel = .ok (some y)) :
    ∃ ys r H, y = .vec ys ∧
      History n r (fun i j => mu.entry i + sigma.entry i * z j) (fun i x => hi.entry i < x ∨ x < lo.entry i) ys H ∧
      (∀ i, i < n → lo.entry i ≤ ys.getD i 0 ∧ ys.getD i 0 ≤ hi.entry i) ∧
      (∀ i, i < n → lo.entry i ≤ mu.entry i + sigma.entry i * z i → mu.entry i + sigma.entry i * z i ≤ hi.entry i →
        ys[i]? = some (mu.entry i + sigma.entry i * z i)) := by
  have hrun : truncNormalSampler z mu sigma lo hi size fuel =
      (drawVec z 0 mu sigma n).bind fun xs => (loopVec z mu sigma lo hi fuel n xs).bind fun ys =>
        .ok (ys.map Arr.vec) := by
    rcases hn with hn | ⟨hn, hd⟩
    · subst hn; rfl
    · subst hn
      unfold truncNormalSampler
      rw [drawLen_of hm hs hd]; rfl
  rw [hrun] at h
  cases hx : drawVec z 0 mu sigma n with
  | error e => rw [hx] at h; cases h
  | ok xs =>
    rw [hx] at h
    change (loopVec z mu sigma lo hi fuel n xs).bind _ = _ at h
    cases hl : loopVec z mu sigma lo hi fuel n xs with
    | error e => rw [hl] at h; cases h
    | ok o =>
      rw [hl] at h
      cases o with
      | none => cases h
      | some ys =>
        have hy : y = .vec ys := by
          have h' : Except.ok (some (Arr.vec ys)) = (Except.ok (some y) : Except PyErr _) := h
          injection h' with h'; injection h' with h'; exact h'.symm
        have h0 := drawVec_history z mu sigma n (fun i x => hi.entry i < x ∨ x < lo.entry i) xs hx hm hs
        obtain ⟨r, H, _, h2, h3, h4⟩ := loopVec_spec z mu sigma lo hi n hm hs hlo hhi fuel n xs ys _ h0 hl
        refine ⟨ys, r, H, hy, h2, h3, ?_⟩
        intro i hi' hl' hu'
        have hx2 := (drawVec_spec z 0 mu sigma n xs hx hm hs).2 i hi'
        rw [Nat.zero_add] at hx2
        have hg : xs.getD i 0 = mu.entry i + sigma.entry i * z i := by
          rw [List.getD_eq_getElem?_getD, hx2]; rfl
        rw [h4 i hi' (by rw [hg]; exact hl') (by rw [hg]; exact hu'), hx2]

theorem loopOne_spec (z : ℕ → K) (m s a b : K) (hs : 0 ≤ s) : ∀ (fuel r : ℕ) (y : K),
    loopOne z m s a b fuel (r + 1) (m + s * z r) = .ok (some y) ↔
      ∃ j, j ≤ fuel ∧ y = m + s * z (r + j) ∧ a ≤ y ∧ y ≤ b ∧
        ∀ i, i < j → m + s * z (r + i) < a ∨ b < m + s * z (r + i) := by
  intro fuel
  induction fuel with
  | zero =>
    intro r y
    rw [loopOne]
    split_ifs with h
    · constructor
      · intro h'; cases h'
      · rintro ⟨j, h0, h1, h2, h3, _⟩
        have : j = 0 := by omega
        subst this
        rw [Nat.add_zero] at h1
        rcases h with h | h
        · exact absurd (h1 ▸ h3) (not_le.2 h)
        · exact absurd (h1 ▸ h2) (not_le.2 h)
    · push Not at h
      constructor
      · intro h'
        injection h' with h'; injection h' with h'
        exact ⟨0, le_rfl, h'.symm, h' ▸ h.2, h' ▸ h.1, by simp⟩
      · rintro ⟨j, h0, h1, _⟩
        have : j = 0 := by omega
        subst this
        rw [h1]; rfl
  | succ fuel ih =>
    intro r y
    rw [loopOne]
    split_ifs with h
    · show (drawOne z (r + 1) m s).bind (fun s' => loopOne z m s a b fuel (r + 1 + 1) s') = _ ↔ _
      rw [drawOne, if_neg (not_lt.2 hs)]
      show loopOne z m s a b fuel (r + 1 + 1) (m + s * z (r + 1)) = _ ↔ _
      rw [ih (r + 1) y]
      constructor
      · rintro ⟨j, h0, h1, h2, h3, h4⟩
        refine ⟨j + 1, by omega, by rw [h1]; congr 3; omega, h2, h3, ?_⟩
        intro i hi
        cases i with
        | zero => exact h.symm
        | succ i =>
          have := h4 i (by omega)
          rw [show r + 1 + i = r + (i + 1) by omega] at this
          exact this
      · rintro ⟨j, h0, h1, h2, h3, h4⟩
        cases j with
        | zero =>
          rw [Nat.add_zero] at h1
          rcases h with h | h
          · exact absurd (h1 ▸ h3) (not_le.2 h)
          · exact absurd (h1 ▸ h2) (not_le.2 h)
        | succ j =>
          refine ⟨j, by omega, by rw [h1]; congr 3; omega, h2, h3, ?_⟩
          intro i hi
          have := h4 (i + 1) (by omega)
          rw [show r + (i + 1) = r + 1 + i by omega] at this
          exact this
    · push Not at h
      constructor
      · intro h'
        injection h' with h'; injection h' with h'
        exact ⟨0, by omega, h'.symm, h' ▸ h.2, h' ▸ h.1, by simp⟩
      · rintro ⟨j, h0, h1, h2, h3, h4⟩
        cases j with
        | zero => rw [h1]; rfl
        | succ j =>
          rcases h4 0 (by omega) with h5 | h5
          · exact absurd h.2 (not_le.2 h5)
          · exact absurd h.1 (not_le.2 h5)

/-- **C64**: for a mean and a deviation that are numbers, bounds that are numbers or arrays of one entry, and no size the sampler returns exactly the first draw of the stream in
`[pmin, pmax]`; it returns within `fuel` redraws if and only if such a draw comes that early. -/
theorem C64_scalar (z : ℕ → K) (m s a b : K) (hs : 0 ≤ s) (lo hi : Arr K) (hlo : lo = .num a ∨ lo = .vec [a])
    (hhi : hi = .num b ∨ hi = .vec [b]) (fuel : ℕ) (y : Arr K) :
    truncNormalSampler z (.num m) (.num s) lo hi none fuel = .ok (some y) ↔
      ∃ j x, j ≤ fuel ∧ y = .num x ∧ x = m + s * z j ∧ a ≤ x ∧ x ≤ b ∧
        ∀ i, i < j → m + s * z i < a ∨ b < m + s * z i := by
  have hrun : truncNormalSampler z (.num m) (.num s) lo hi none fuel =
      (loopOne z m s a b fuel (0 + 1) (m + s * z 0)).bind fun y => .ok (y.map Arr.num) := by
    rcases hlo with rfl | rfl <;> rcases hhi with rfl | rfl <;>
    · show (drawOne z 0 m s).bind _ = _
      rw [drawOne, if_neg (not_lt.2 hs)]
      rfl
  rw [hrun]
  have key := loopOne_spec z m s a b hs fuel 0
  constructor
  · intro h
    cases hl : loopOne z m s a b fuel (0 + 1) (m + s * z 0) with
    | error e => rw [hl] at h; cases h
    | ok o =>
      rw [hl] at h
      cases o with
      | none => cases h
      | some x =>
        obtain ⟨j, h1, h2, h3, h4, h5⟩ := (key x).1 hl
        have h' : Except.ok (some (Arr.num x)) = (Except.ok (some y) : Except PyErr _) := h
        injection h' with h'; injection h' with h'
        exact ⟨j, x, h1, h'.symm, by simpa using h2, h3, h4, by simpa using h5⟩
  · rintro ⟨j, x, h1, h2, h3, h4, h5, h6⟩
    rw [(key x).2 ⟨j, h1, by simpa using h3, h4, h5, by simpa using h6⟩, h2]
    rfl

/-- **C64**: the bounds are not checked: with an empty range for some component the sampler never
returns, whatever the stream. -/
theorem C64_empty_range (z : ℕ → K) (mu sigma lo hi : Arr K) (size : Option ℕ) (fuel n : ℕ)
    (hn : size = some n ∨ (size = none ∧ (IsVec mu ∨ IsVec sigma)))
    (hm : Fits n mu) (hs : Fits n sigma) (hlo : Fits n lo) (hhi : Fits n hi) (i : ℕ) (hi' : i < n)
    (hempty : hi.entry i < lo.entry i) (y : Arr K) :
    truncNormalSampler z mu sigma lo hi size fuel ≠ .ok (some y) := by
  intro h
  obtain ⟨ys, _, _, _, _, h3, _⟩ := C64_vector z mu sigma lo hi size fuel n y hn hm hs hlo hhi h
  have := h3 i hi'
  exact absurd (this.1.trans this.2) (not_le.2 hempty)

/-- **C64**: with a vector `mu` and a number `sigma` the sampler works only by luck: it raises as soon as
one component of the first pass is out of range (`sigma[mask]` of a number). -/
theorem C64_mixed (z : ℕ → K) (m : List K) (s : K) (hs : 0 ≤ s) (lo hi : Arr K) (fuel : ℕ)
    (hlo : Fits m.length lo) (hhi : Fits m.length hi) (i : ℕ) (hi' : i < m.length)
    (hout : hi.entry i < m.getD i 0 + s * z i ∨ m.getD i 0 + s * z i < lo.entry i) :
    truncNormalSampler z (.vec m) (.num s) lo hi none (fuel + 1) = .error .typeError := by
  have hd : drawVec z 0 (.vec m) (.num s) m.length =
      .ok ((List.range m.length).map fun i => drawAt i (.vec m) + drawAt i (.num s) * z (0 + i)) := by
    unfold drawVec
    rw [if_neg (by simp [drawFits]), if_neg (by simp [Arr.entries, hs])]
  obtain ⟨h1, h2⟩ := drawVec_spec z 0 (.vec m) (.num s) m.length _ hd rfl trivial
  generalize ((List.range m.length).map fun i => drawAt i (.vec m) + drawAt i (.num s) * z (0 + i)) = xs at hd h1 h2
  obtain ⟨mask, e, l, g⟩ := outMask_spec xs lo hi (by rw [h1]; exact hlo) (by rw [h1]; exact hhi)
  have hmask : mask[i]? = some true := by
    rw [g i (by omega), List.getD_eq_getElem?_getD, h2 i hi', Nat.zero_add]
    show some (decide (hi.entry i < m.getD i 0 + s * z i) || decide (m.getD i 0 + s * z i < lo.entry i)) = some true
    rw [Option.some.injEq, Bool.or_eq_true, decide_eq_true_eq, decide_eq_true_eq]; exact hout
  have hany : mask.any id = true := List.any_eq_true.2 ⟨true, List.mem_of_getElem? hmask, rfl⟩
  show ((drawVec z 0 (.vec m) (.num s) m.length).bind fun xs =>
    (loopVec z (.vec m) (.num s) lo hi (fuel + 1) m.length xs).bind fun ys => .ok (ys.map Arr.vec)) = _
  rw [hd]
  show ((loopVec z (.vec m) (.num s) lo hi (fuel + 1) m.length xs).bind fun ys => .ok (ys.map Arr.vec)) = _
  rw [loopVec, e]
  show (if mask.any id = true then (if mask.length = xs.length then
      (redraw z m.length (.vec m) (.num s) mask).bind fun new =>
        loopVec z (.vec m) (.num s) lo hi fuel (m.length + mask.count true) (put xs mask new)
      else Except.error PyErr.indexError) else Except.ok (some xs)).bind _ = _
  rw [if_pos hany, if_pos l]
  have : redraw z m.length (.vec m) (.num s) mask = .error .typeError := by
    show ((pickArr mask (.vec m)).bind fun m' => (pickArr mask (.num s)).bind fun s' =>
      drawVec z m.length (.vec m') (.vec s') (mask.count true)) = _
    have hp : pickArr mask (.vec m) = .ok (pick m mask) := if_pos (by omega)
    rw [hp]
    rfl
  rw [this]
  rfl

/-! A stream whose draws 1 and 3 are out of range: component 1 is drawn three times, the others once. -/

private def zs : ℕ → ℚ := fun j => [1, 9, -1, -9, 1 / 2].getD j 0

example : truncNormalSampler zs (.vec [0, 0, 1]) (.vec [1, 1, 2]) (.num (-2)) (.num 2) none 5 =
    .ok (some (.vec [1, 1 / 2, -1])) := by decide +kernel

example : truncNormalSampler zs (.num 0) (.num 1) (.num (-2)) (.num 0) none 5 = .ok (some (.num (-1))) := by
  decide +kernel

example : truncNormalSampler zs (.vec [0, 0, 1]) (.num 1) (.num (-2)) (.num 2) none 5 = .error .typeError := by
  decide +kernel

example := C64_vector (K := ℚ) (fun j => [1, 9, -1, -9, 1 / 2].getD j 0) (.vec [0, 0, 1]) (.vec [1, 1, 2]) (.num (-2)) (.num 2) none 5 3 (.vec [1, 1 / 2, -1])
  (.inr ⟨rfl, .inl trivial⟩) rfl rfl trivial trivial (by decide +kernel)

end Verif.Priors
