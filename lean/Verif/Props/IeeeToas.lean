import Verif.Lemmas.Ieee
import Verif.Model.IeeeToas

/-!
# Decisions on TOAs in floating-point arithmetic

C138: rounding does not change which TOAs belong together.
-/

namespace Verif.Ieee

open Verif Quantize

variable (A : Arith)

/-! ## Differences of close numbers, and the spacing of representable numbers -/

/-- The difference of two representable numbers within a factor of two is representable. -/
theorem sterbenz {x y : ℝ} (hx : Rep x) (hy : Rep y) (h1 : y ≤ x) (h2 : x ≤ 2 * y) : Rep (x - y) := by
  obtain ⟨n, k, hn, rfl⟩ := hx
  obtain ⟨m, l, hm, rfl⟩ := hy
  have ht := tiny_pos
  rcases le_total k l with h | h
  · obtain ⟨d, rfl⟩ := Nat.exists_eq_add_of_le h
    have h3 : (n : ℝ) * 2 ^ k * tiny - m * 2 ^ (k + d) * tiny = ((n - m * 2 ^ d : ℤ) : ℝ) * 2 ^ k * tiny := by push_cast; ring
    rw [h3]
    refine ⟨n - m * 2 ^ d, k, ?_, rfl⟩
    have hp : (0 : ℝ) < 2 ^ k * tiny := by positivity
    have g1 : (0 : ℝ) ≤ ((n - m * 2 ^ d : ℤ) : ℝ) := by
      have : 0 ≤ ((n - m * 2 ^ d : ℤ) : ℝ) * (2 ^ k * tiny) := by rw [← mul_assoc, ← h3]; linarith
      exact nonneg_of_mul_nonneg_left this hp
    have g2 : ((n - m * 2 ^ d : ℤ) : ℝ) ≤ (n : ℝ) := by
      refine le_of_mul_le_mul_right ?_ hp
      rw [← mul_assoc, ← h3, ← mul_assoc]
      linarith
    have g1' : 0 ≤ n - m * 2 ^ d := by exact_mod_cast g1
    have g2' : n - m * 2 ^ d ≤ n := by exact_mod_cast g2
    rw [abs_of_nonneg g1']
    exact g2'.trans ((le_abs_self n).trans hn)
  · obtain ⟨d, rfl⟩ := Nat.exists_eq_add_of_le h
    have h3 : (n : ℝ) * 2 ^ (l + d) * tiny - m * 2 ^ l * tiny = ((n * 2 ^ d - m : ℤ) : ℝ) * 2 ^ l * tiny := by push_cast; ring
    rw [h3]
    refine ⟨n * 2 ^ d - m, l, ?_, rfl⟩
    have hp : (0 : ℝ) < 2 ^ l * tiny := by positivity
    have g1 : (0 : ℝ) ≤ ((n * 2 ^ d - m : ℤ) : ℝ) := by
      have : 0 ≤ ((n * 2 ^ d - m : ℤ) : ℝ) * (2 ^ l * tiny) := by rw [← mul_assoc, ← h3]; linarith
      exact nonneg_of_mul_nonneg_left this hp
    have g2 : ((n * 2 ^ d - m : ℤ) : ℝ) ≤ (m : ℝ) := by
      refine le_of_mul_le_mul_right ?_ hp
      rw [← mul_assoc, ← h3, ← mul_assoc]
      linarith
    have g1' : 0 ≤ n * 2 ^ d - m := by exact_mod_cast g1
    have g2' : n * 2 ^ d - m ≤ m := by exact_mod_cast g2
    rw [abs_of_nonneg g1']
    exact g2'.trans ((le_abs_self m).trans hm)

/-- Representable numbers above `2 ** 53 * 2 ** j` are multiples of `2 ** (j + 1)`. -/
theorem rep_spacing {y : ℝ} (h : Rep y) {j : ℤ} (hj : (2 : ℝ) ^ 53 * (2 : ℝ) ^ j < |y|) : ∃ m : ℤ, y = m * (2 : ℝ) ^ (j + 1) := by
  obtain ⟨n, k, hn, rfl⟩ := h
  have hk : (2 : ℝ) ^ k * tiny = (2 : ℝ) ^ ((k : ℤ) - 1074) := by
    rw [tiny, ← zpow_natCast, ← zpow_add₀ (by norm_num)]
    rfl
  rw [mul_assoc, hk] at hj ⊢
  have hlt : j < (k : ℤ) - 1074 := by
    by_contra hc
    have h1 : (2 : ℝ) ^ ((k : ℤ) - 1074) ≤ (2 : ℝ) ^ j := zpow_le_zpow_right₀ (by norm_num) (by omega)
    have h2 : |(n : ℝ)| ≤ 2 ^ 53 := by exact_mod_cast hn
    have h3 : |(n : ℝ) * (2 : ℝ) ^ ((k : ℤ) - 1074)| ≤ 2 ^ 53 * (2 : ℝ) ^ j := by
      rw [abs_mul, abs_of_pos (by positivity : (0 : ℝ) < (2 : ℝ) ^ ((k : ℤ) - 1074))]
      exact mul_le_mul h2 h1 (by positivity) (by positivity)
    linarith
  refine ⟨n * 2 ^ ((k : ℤ) - 1074 - (j + 1)).toNat, ?_⟩
  push_cast
  rw [mul_assoc, ← zpow_natCast, Int.toNat_of_nonneg (by omega), ← zpow_add₀ (by norm_num)]
  congr 2
  omega

/-! ## Rules for rounding -/

/-- The rule rounds to a nearest representable number, as all processors do by default. -/
def Nearest : Prop := ∀ x y, Rep y → |A.rnd x - x| ≤ |y - x|

/-- Rounding to nearest, computed. -/
theorem Nearest.eq {A : Arith} (hA : Nearest A) {z : ℝ} {j : ℤ} (m : ℤ) (hm : |m| ≤ 2 ^ 53) (hj : -1074 ≤ j) (hz : (2 : ℝ) ^ 53 * (2 : ℝ) ^ (j - 1) + (2 : ℝ) ^ j < z)
    (h : |z - m * (2 : ℝ) ^ j| < (2 : ℝ) ^ j / 2) : A.rnd z = m * (2 : ℝ) ^ j := by
  have hp : (0 : ℝ) < (2 : ℝ) ^ j := by positivity
  have h1 := hA z _ (rep_zpow m j hm hj)
  have h2 : |A.rnd z - z| < (2 : ℝ) ^ j / 2 := h1.trans_lt (by rwa [abs_sub_comm])
  have h3 : (2 : ℝ) ^ 53 * (2 : ℝ) ^ (j - 1) < |A.rnd z| := by
    refine lt_of_lt_of_le ?_ (le_abs_self _)
    have := (abs_lt.1 h2).1
    linarith
  obtain ⟨k, hk⟩ := rep_spacing (A.rep z) h3
  rw [sub_add_cancel] at hk
  rw [hk] at h2 ⊢
  have h4 : |((k - m : ℤ) : ℝ) * (2 : ℝ) ^ j| < (2 : ℝ) ^ j := by
    have : ((k - m : ℤ) : ℝ) * (2 : ℝ) ^ j = (k * (2 : ℝ) ^ j - z) + (z - m * (2 : ℝ) ^ j) := by push_cast; ring
    rw [this]
    refine (abs_add_le _ _).trans_lt ?_
    linarith
  rw [abs_mul, abs_of_pos hp] at h4
  have h5 : |((k - m : ℤ) : ℝ)| < 1 := by
    by_contra hc
    push Not at hc
    nlinarith
  have h6 : |k - m| < 1 := by exact_mod_cast h5
  rw [Int.abs_lt_one_iff] at h6
  have : k = m := by omega
  rw [this]

theorem down_le (x : ℝ) : down.rnd x ≤ x := (Classical.choose_spec (exists_down x)).1.2

theorem le_down {x y : ℝ} (hy : Rep y) (h : y ≤ x) : y ≤ down.rnd x := by
  have := down.mono h
  rwa [down.fix y hy] at this

/-- Rounding to nearest, down if there are two. -/
noncomputable def near : Arith where
  rnd x := if 2 * x ≤ down.rnd x + -down.rnd (-x) then down.rnd x else -down.rnd (-x)
  mono := fun x y h => by
    have d1 := down_le x
    have d2 := down_le y
    have u1 : x ≤ -down.rnd (-x) := by linarith [down_le (-x)]
    have u2 : y ≤ -down.rnd (-y) := by linarith [down_le (-y)]
    have m1 := down.mono h
    have m2 := down.mono (neg_le_neg h)
    show (if _ then _ else _) ≤ (if _ then _ else _)
    split <;> split
    · exact m1
    · linarith
    · next h1 h2 =>
      rcases le_or_gt (-down.rnd (-x)) y with h3 | h3
      · exact le_down (down.rep _).neg h3
      · exfalso
        have e1 : down.rnd y ≤ down.rnd x := by
          rcases le_or_gt x (down.rnd y) with h4 | h4
          · have : -down.rnd (-x) ≤ down.rnd y := by
              have := le_down (x := -x) (down.rep y).neg (by linarith)
              linarith
            linarith
          · exact le_down (down.rep y) h4.le
        have e2 : -down.rnd (-y) ≤ -down.rnd (-x) := by
          have := le_down (x := -y) (y := down.rnd (-x)) (down.rep _) (by linarith)
          linarith
        linarith
    · linarith
  rep := fun x => by
    split
    · exact down.rep x
    · exact (down.rep _).neg
  fix := fun x hx => by
    rw [down.fix x hx, down.fix _ hx.neg, neg_neg]
    simp

theorem near_nearest : Nearest near := by
  intro x y hy
  have d1 := down_le x
  have u1 : x ≤ -down.rnd (-x) := by linarith [down_le (-x)]
  show |(if _ then _ else _) - x| ≤ _
  have key : (x - down.rnd x ≤ |y - x|) ∨ (-down.rnd (-x) - x ≤ |y - x|) := by
    rcases le_total y x with h | h
    · left
      rw [abs_of_nonpos (by linarith)]
      linarith [le_down hy h]
    · right
      rw [abs_of_nonneg (by linarith)]
      linarith [le_down (x := -x) hy.neg (by linarith)]
  split
  · rw [abs_of_nonpos (by linarith)]
    rcases key with h | h <;> linarith
  · rw [abs_of_nonneg (by linarith)]
    rcases key with h | h <;> linarith

/-! ## Epochs -/

theorem lt_round {x dt : ℝ} (hdt : Rep dt) (h : lt (A.round x) (.fin dt) = true) (h0 : 0 ≤ x) : x < dt := by
  by_contra hc
  push Not at hc
  have g : dt ≤ A.rnd x := by
    have := A.mono hc
    rwa [A.fix _ hdt] at this
  rcases round_nonneg A h0 with h' | ⟨y, -, h'⟩
  · rw [h'] at h
    simp [lt] at h
  · rw [h'] at h
    have hy : A.rnd x = y := by
      unfold Arith.round at h'
      split at h'
      · simp at h'
      · split at h'
        · simp at h'
        · exact Fl.fin.inj h'
    rw [hy] at g
    simp [lt] at h
    linarith

/-- The comparison of the loop is that of exact arithmetic. -/
theorem compare {t r dt : ℝ} (ht : Rep t) (hr : Rep r) (hdt : Rep dt) (h1 : r ≤ t) (h2 : dt ≤ r) (hb : t ≤ big) :
    lt (sub A (.fin t) (.fin r)) (.fin dt) = decide (t - r < dt) := by
  have e : sub A (.fin t) (.fin r) = A.round (t - r) := by simp only [sub, neg, add, sub_eq_add_neg]
  rw [e]
  by_cases hc : t - r < dt
  · rw [decide_eq_true hc, round_rep A (sterbenz ht hr h1 (by linarith)) (by rw [abs_of_nonneg (by linarith)]; linarith)]
    simpa [lt] using hc
  · rw [decide_eq_false hc, Bool.eq_false_iff]
    intro h
    exact hc (lt_round A hdt h (by linarith))

theorem loop_eq {xs : List ℝ} {dt : ℝ} (hdt : Rep dt) (h0 : 0 ≤ dt) (hx : ∀ x ∈ xs, Rep x ∧ dt ≤ x ∧ x ≤ big) (t : Nat → Fl)
    (ht : ∀ i < xs.length, t i = .fin (xs.getD i 0)) : ∀ (l : List Nat) (r : ℝ) (cur : List Nat), Rep r → dt ≤ r → (∀ i ∈ l, i < xs.length ∧ r ≤ xs.getD i 0) →
      (l.map fun i => xs.getD i 0).Pairwise (· ≤ ·) →
      (bucketLoopF A t (.fin dt) (.fin r) cur l).map Prod.snd = (bucketLoop (fun i => xs.getD i 0) dt r cur l).map Prod.snd := by
  intro l
  induction l with
  | nil => intro r cur _ _ _ _; rfl
  | cons i l ih =>
    intro r cur hr hdr hl hp
    obtain ⟨hi, hri⟩ := hl i (by simp)
    have hmem : xs.getD i 0 ∈ xs := by
      simp [List.getD_eq_getElem?_getD, hi]
    obtain ⟨x1, x2, x3⟩ := hx _ hmem
    rw [List.map_cons, List.pairwise_cons] at hp
    rw [bucketLoopF, bucketLoop, ht i hi, compare A x1 hr hdt hri hdr x3]
    by_cases hc : xs.getD i 0 - r < dt
    · rw [if_pos (by simpa using hc), if_pos hc]
      exact ih r _ hr hdr (fun k hk => hl k (by simp [hk])) hp.2
    · rw [if_neg (by simpa using hc), if_neg hc, List.map_cons, List.map_cons,
        ih _ _ x1 x2 (fun k hk => ⟨(hl k (by simp [hk])).1, hp.1 _ (List.mem_map.2 ⟨k, hk, rfl⟩)⟩) hp.2]

/-- C138 for observing epochs: for TOAs that are binary64 numbers not below `dt`, `create_quantization_matrix` gives the epochs that exact arithmetic
gives, whatever the rule for rounding. -/
theorem C138_epochs {xs : List ℝ} {isort : List Nat} (hs : IsArgsort xs isort) {dt : ℝ} (hdt : Rep dt) (h0 : 0 ≤ dt)
    (hx : ∀ x ∈ xs, Rep x ∧ dt ≤ x ∧ x ≤ big) (nmin : Nat) :
    quantColsF A (xs.map .fin) isort (.fin dt) nmin = quantCols xs isort dt nmin := by
  cases isort with
  | nil => rfl
  | cons i0 rest =>
    have hi0 : i0 < xs.length := by simpa using hs.perm.mem_iff.1 (by simp : i0 ∈ i0 :: rest)
    have ht : ∀ i < xs.length, (xs.map Fl.fin).getD i .nan = .fin (xs.getD i 0) := by
      intro i hi
      simp [List.getD_eq_getElem?_getD, hi]
    have hmem : xs.getD i0 0 ∈ xs := by
      simp [List.getD_eq_getElem?_getD, hi0]
    have hp := hs.sorted
    rw [List.map_cons, List.pairwise_cons] at hp
    simp only [quantColsF, epochsF, quantCols, ht i0 hi0, List.length_map]
    rw [loop_eq A hdt h0 hx _ ht rest _ _ (hx _ hmem).1 (hx _ hmem).2.1 (fun k hk => ?_) hp.2]
    exact ⟨by simpa using hs.perm.mem_iff.1 (by simp [hk] : k ∈ i0 :: rest), hp.1 _ (List.mem_map.2 ⟨k, hk, rfl⟩)⟩

theorem loop_short {x : Nat → ℝ} {dt : ℝ} (hdt : Rep dt) : ∀ (l : List Nat) (r : ℝ) (cur : List Nat), (∀ i ∈ cur, r ≤ x i ∧ x i - r < dt) → (∀ i ∈ l, r ≤ x i) →
    (l.map x).Pairwise (· ≤ ·) → 0 < dt →
    ∀ b ∈ bucketLoopF A (fun i => .fin (x i)) (.fin dt) (.fin r) cur l, ∃ r', ∀ i ∈ b.2, r' ≤ x i ∧ x i - r' < dt := by
  intro l
  induction l with
  | nil =>
    intro r cur hc _ _ _ b hb
    rw [bucketLoopF, List.mem_singleton] at hb
    subst hb
    exact ⟨r, hc⟩
  | cons i l ih =>
    intro r cur hc hl hp h0 b hb
    rw [List.map_cons, List.pairwise_cons] at hp
    rw [bucketLoopF] at hb
    split at hb
    · next h =>
      have e : sub A (.fin (x i)) (.fin r) = A.round (x i - r) := by simp only [sub, neg, add, sub_eq_add_neg]
      rw [e] at h
      have hi := hl i (by simp)
      refine ih r _ (fun k hk => ?_) (fun k hk => hl k (by simp [hk])) hp.2 h0 b hb
      rcases List.mem_append.1 hk with hk | hk
      · exact hc k hk
      · rw [List.mem_singleton.1 hk]
        exact ⟨hi, lt_round A hdt h (by linarith)⟩
    · rcases List.mem_cons.1 hb with rfl | hb
      · exact ⟨r, hc⟩
      · refine ih (x i) [i] (fun k hk => ?_) (fun k hk => hp.1 _ (List.mem_map.2 ⟨k, hk, rfl⟩)) hp.2 h0 b hb
        rw [List.mem_singleton.1 hk]
        exact ⟨le_rfl, by simpa using h0⟩

theorem loop_congr {t t' : Nat → Fl} {dt : Fl} : ∀ (l : List Nat) (ref : Fl) (cur : List Nat), (∀ i ∈ l, t i = t' i) →
    bucketLoopF A t dt ref cur l = bucketLoopF A t' dt ref cur l := by
  intro l
  induction l with
  | nil => intro _ _ _; rfl
  | cons i l ih =>
    intro ref cur h
    rw [bucketLoopF, bucketLoopF, h i (by simp), ih _ _ (fun k hk => h k (by simp [hk])), ih _ _ (fun k hk => h k (by simp [hk]))]

/-- C138 for observing epochs of any finite TOAs, also small or negative ones: two TOAs of an epoch are less than `dt` apart, exactly. -/
theorem C138_short {xs : List ℝ} {isort : List Nat} (hs : IsArgsort xs isort) {dt : ℝ} (hdt : Rep dt) (h0 : 0 < dt) (nmin : Nat) {eps : List (List Nat)}
    (h : epochsF A (xs.map .fin) isort (.fin dt) nmin = .ok eps) : ∀ ep ∈ eps, ∀ i ∈ ep, ∀ k ∈ ep, |xs.getD i 0 - xs.getD k 0| < dt := by
  cases isort with
  | nil => simp [epochsF] at h
  | cons i0 rest =>
    have hlen : ∀ i ∈ i0 :: rest, i < xs.length := fun i hi => by simpa using hs.perm.mem_iff.1 hi
    have ht : ∀ i < xs.length, (xs.map Fl.fin).getD i .nan = .fin (xs.getD i 0) := by
      intro i hi
      simp [List.getD_eq_getElem?_getD, hi]
    have hp := hs.sorted
    rw [List.map_cons, List.pairwise_cons] at hp
    simp only [epochsF, Except.ok.injEq] at h
    rw [ht i0 (hlen i0 (by simp)), loop_congr A (t' := fun i => .fin (xs.getD i 0)) rest _ _ (fun i hi => ht i (hlen i (by simp [hi])))] at h
    subst h
    intro ep hep i hi k hk
    obtain ⟨hep, -⟩ := List.mem_filter.1 hep
    obtain ⟨b, hb, rfl⟩ := List.mem_map.1 hep
    obtain ⟨r, hr⟩ := loop_short A (x := fun i => xs.getD i 0) hdt rest _ [i0] (fun i hi => by
      rw [List.mem_singleton.1 hi]
      exact ⟨le_rfl, by simpa using h0⟩) (fun i hi => hp.1 _ (List.mem_map.2 ⟨i, hi, rfl⟩)) hp.2 h0 b hb
    have g1 := hr i hi
    have g2 := hr k hk
    rw [abs_lt]
    constructor <;> linarith

/-! ## Time windows -/

/-- C138 for `filter_data`: an observation whose MJD is in the window is kept, and one outside the window is kept only if its time in seconds is the same
binary64 number as that of the bound. -/
theorem C138_window {m a b : ℝ} (hm : |m| ≤ (2 : ℝ) ^ (900 : ℤ)) (ha : |a| ≤ (2 : ℝ) ^ (900 : ℤ)) (hb : |b| ≤ (2 : ℝ) ^ (900 : ℤ)) :
    (a ≤ m → m ≤ b → inWindow A (.fin a) (.fin b) (seconds A (.fin m)) = true) ∧
    (inWindow A (.fin a) (.fin b) (seconds A (.fin m)) = true → m < a → seconds A (.fin m) = seconds A (.fin a)) ∧
    (inWindow A (.fin a) (.fin b) (seconds A (.fin m)) = true → b < m → seconds A (.fin m) = seconds A (.fin b)) := by
  have key : ∀ x : ℝ, |x| ≤ (2 : ℝ) ^ (900 : ℤ) → A.round (x * 86400) = .fin (A.rnd (x * 86400)) := by
    intro x hx
    have h1 : |x * 86400| ≤ (2 : ℝ) ^ (917 : ℤ) := by
      rw [abs_mul]
      have : (2 : ℝ) ^ (917 : ℤ) = (2 : ℝ) ^ (900 : ℤ) * 131072 := by
        have : (2 : ℝ) ^ (917 : ℤ) = (2 : ℝ) ^ ((900 : ℤ) + 17) := by norm_num
        rw [this, zpow_add₀ (by norm_num)]
        norm_num
      rw [this]
      exact mul_le_mul hx (by norm_num) (abs_nonneg _) (by positivity)
    obtain ⟨y, hy, -⟩ := round_between A (abs_le.1 h1).1 (abs_le.1 h1).2 (rep_pow 917 (by norm_num)).neg (rep_pow 917 (by norm_num))
      (neg_le_neg (pow_le_big (by norm_num))) (pow_le_big (by norm_num))
    unfold Arith.round at hy ⊢
    split at hy
    · simp at hy
    · split at hy
      · simp at hy
      · next h1 h2 => rw [if_neg h1, if_neg h2]
  simp only [inWindow, seconds, mul, key m hm, key a ha, key b hb, le, Bool.and_eq_true, decide_eq_true_eq, Fl.fin.injEq]
  refine ⟨fun h1 h2 => ⟨A.mono (by linarith), A.mono (by linarith)⟩, fun h1 h2 => ?_, fun h1 h2 => ?_⟩
  · exact le_antisymm (A.mono (by linarith)) h1.1
  · exact le_antisymm h1.2 (A.mono (by linarith))

/-! ## Halves -/

/-- C138 for `cut_half`, the part that holds: each TOA is in exactly one of the halves, and the first TOA is in the first one. -/
theorem C138_halves_partial {x y : ℝ} (hx : Rep x) (hy : Rep y) (hxy : x ≤ y) (h1 : -(2 : ℝ) ^ (900 : ℤ) ≤ x) (h2 : y ≤ (2 : ℝ) ^ (900 : ℤ)) :
    (∀ t : ℝ, (halves A (.fin y) (.fin x) (.fin t)).1 = !(halves A (.fin y) (.fin x) (.fin t)).2) ∧
      (halves A (.fin y) (.fin x) (.fin x)).1 = true := by
  have twice : ∀ z : ℝ, Rep z → Rep (z + z) := by
    rintro z ⟨n, k, hn, rfl⟩
    exact ⟨n, k + 1, hn, by ring⟩
  have hp : (2 : ℝ) ^ (901 : ℤ) = 2 * (2 : ℝ) ^ (900 : ℤ) := by
    have : (2 : ℝ) ^ (901 : ℤ) = (2 : ℝ) ^ ((1 : ℤ) + 900) := by norm_num
    rw [this, zpow_add₀ (by norm_num), zpow_one]
  have hb := pow_le_big (j := 901) (by norm_num)
  have hb' := pow_le_big (j := 900) (by norm_num)
  rw [hp] at hb
  generalize (2 : ℝ) ^ (900 : ℤ) = c at *
  clear hp
  obtain ⟨s, hs, hs1, hs2, -⟩ := round_between A (x := y + x) (lo := x + x) (hi := y + y) (by linarith) (by linarith) (twice x hx) (twice y hy)
    (by linarith) (by linarith)
  obtain ⟨q, hq, hq1, hq2, -⟩ := round_between A (x := s / 2) (lo := x) (hi := y) (by linarith) (by linarith) hx hy (by linarith) (by linarith)
  have hmid : midpoint A (.fin y) (.fin x) = .fin q := by
    simp only [midpoint, add, hs, div, two_ne_zero, if_false, hq]
  refine ⟨fun t => ?_, ?_⟩
  · simp only [halves, hmid, le, lt]
    by_cases h : t ≤ q
    · simp [h]
    · simp [h, not_le.1 h]
  · simp only [halves, hmid, le]
    simpa using hq1

/-- C138 is false for `cut_half`: of two different TOAs, both may be in the first half, and then the second half is empty.  The rule rounds half-way cases to
even numbers, as processors do. -/
theorem C138_halves_false (h : A.rnd (2 ^ 54 - 1) = 2 ^ 54) :
    halves A (.fin (2 ^ 53)) (.fin (2 ^ 53 - 1)) (.fin (2 ^ 53)) = (true, false) ∧
      halves A (.fin (2 ^ 53)) (.fin (2 ^ 53 - 1)) (.fin (2 ^ 53 - 1)) = (true, false) := by
  have hb : (2 : ℝ) ^ 54 ≤ big := by
    have := pow_le_big (j := 54) (by norm_num)
    exact_mod_cast this
  have e : A.round (2 ^ 53 + (2 ^ 53 - 1)) = .fin (2 ^ 54) := by
    have : (2 : ℝ) ^ 53 + (2 ^ 53 - 1) = 2 ^ 54 - 1 := by norm_num
    rw [this, Arith.round, h, if_neg (not_lt.2 hb), if_neg (by linarith [big_nonneg, (by positivity : (0 : ℝ) < 2 ^ 54)])]
  have e2 : A.round (2 ^ 54 / 2) = .fin (2 ^ 53) := by
    have : (2 : ℝ) ^ 54 / 2 = 2 ^ 53 := by norm_num
    rw [this]
    refine round_rep A ?_ ?_
    · have := rep_pow 53 (by norm_num)
      exact_mod_cast this
    · rw [abs_of_nonneg (by positivity)]
      linarith
  have hmid : midpoint A (.fin (2 ^ 53)) (.fin (2 ^ 53 - 1)) = .fin (2 ^ 53) := by
    simp only [midpoint, add, e, div, two_ne_zero, if_false, e2]
  simp [halves, hmid, le, lt]

/-! ## DMX bins -/

/-- C138 for DMX bins, the part that holds: bins that follow each other neither overlap nor leave a gap. -/
theorem C138_bins_partial (s : Fl) {a b c : ℝ} (hab : a ≤ b) (hbc : b ≤ c) :
    inBin A (.fin a) (.fin c) s = (inBin A (.fin a) (.fin b) s || inBin A (.fin b) (.fin c) s) ∧
      (inBin A (.fin a) (.fin b) s && inBin A (.fin b) (.fin c) s) = false := by
  unfold inBin
  cases div A s (.fin 86400) with
  | nan => simp [le, lt]
  | pinf => simp [le, lt]
  | ninf => simp [le, lt]
  | fin x =>
    simp only [le, lt]
    by_cases h1 : a ≤ x <;> by_cases h2 : x < b <;> by_cases h3 : x < c <;> by_cases h4 : b ≤ x <;> simp [h1, h2, h3, h4] <;> linarith

/-- C138 is false for DMX bins: the MJD of a TOA is multiplied by 86400 when it is read and divided by 86400 when it is compared, and does not always come
back.  A TOA at MJD 57088.4987 (the binary64 number nearest to it) is not in a bin that begins there, and `WidebandTimingModel` raises `ValueError`. -/
theorem C138_bins_false (hA : Nearest A) (r : Fl) :
    inBin A (.fin (7846183516615632 * (2 : ℝ) ^ (-37 : ℤ))) r (seconds A (.fin (7846183516615632 * (2 : ℝ) ^ (-37 : ℤ)))) = false := by
  have hb : ∀ {x : ℝ}, |x| ≤ 2 ^ 53 → |x| ≤ big := fun h => h.trans (by
    have := pow_le_big (j := 53) (by norm_num)
    exact_mod_cast this)
  have e37 : (2 : ℝ) ^ (-37 : ℤ) = 1 / 137438953472 := by norm_num
  have e38 : (2 : ℝ) ^ ((-37 : ℤ) - 1) = 1 / 274877906944 := by norm_num
  have e20 : (2 : ℝ) ^ (-20 : ℤ) = 1 / 1048576 := by norm_num
  have e21 : (2 : ℝ) ^ ((-20 : ℤ) - 1) = 1 / 2097152 := by norm_num
  have h1 : A.rnd (7846183516615632 * (2 : ℝ) ^ (-37 : ℤ) * 86400) = (5172044798550343 : ℤ) * (2 : ℝ) ^ (-20 : ℤ) :=
    hA.eq _ (by norm_num) (by norm_num) (by rw [e20, e21, e37]; norm_num) (by rw [e20, e37, abs_lt]; norm_num)
  have h2 : A.rnd ((5172044798550343 : ℤ) * (2 : ℝ) ^ (-20 : ℤ) / 86400) = (7846183516615631 : ℤ) * (2 : ℝ) ^ (-37 : ℤ) :=
    hA.eq _ (by norm_num) (by norm_num) (by rw [e20, e37, e38]; norm_num) (by rw [e20, e37, abs_lt]; norm_num)
  have r1 : A.round (7846183516615632 * (2 : ℝ) ^ (-37 : ℤ) * 86400) = .fin ((5172044798550343 : ℤ) * (2 : ℝ) ^ (-20 : ℤ)) := by
    have := abs_le.1 (hb (x := (5172044798550343 : ℤ) * (2 : ℝ) ^ (-20 : ℤ)) (by rw [e20]; norm_num [abs_of_nonneg]))
    rw [Arith.round, h1, if_neg (not_lt.2 this.2), if_neg (not_lt.2 this.1)]
  have r2 : A.round ((5172044798550343 : ℤ) * (2 : ℝ) ^ (-20 : ℤ) / 86400) = .fin ((7846183516615631 : ℤ) * (2 : ℝ) ^ (-37 : ℤ)) := by
    have := abs_le.1 (hb (x := (7846183516615631 : ℤ) * (2 : ℝ) ^ (-37 : ℤ)) (by rw [e37]; norm_num [abs_of_nonneg]))
    rw [Arith.round, h2, if_neg (not_lt.2 this.2), if_neg (not_lt.2 this.1)]
  have h86 : (86400 : ℝ) ≠ 0 := by norm_num
  have h3 : ¬ (7846183516615632 * (2 : ℝ) ^ (-37 : ℤ) ≤ (7846183516615631 : ℤ) * (2 : ℝ) ^ (-37 : ℤ)) := by
    rw [e37]
    norm_num
  simp only [inBin, seconds, mul, r1, div, h86, if_false, r2, le, decide_eq_false h3, Bool.false_and]

/-! ## Examples -/

/-- Three TOAs, two of them within a second. -/
example (A : Arith) : quantColsF A ([4579200000, 4579200000.5, 4579203600].map .fin) [0, 1, 2] (.fin 1) 2 =
    quantCols [(4579200000 : ℝ), 4579200000.5, 4579203600] [0, 1, 2] 1 2 := by
  refine C138_epochs A ⟨by simp [List.range_succ], by simp; norm_num⟩ rep_one (by norm_num) ?_ 2
  have hb : (2 : ℝ) ^ 53 ≤ big := by
    have := pow_le_big (j := 53) (by norm_num)
    exact_mod_cast this
  have hb' : (4579203600 : ℝ) ≤ big := le_trans (by norm_num) hb
  simp only [List.mem_cons, List.not_mem_nil, or_false]
  rintro x (rfl | rfl | rfl)
  · exact ⟨by simpa using rep_nat 4579200000 (by norm_num), by norm_num, by linarith⟩
  · refine ⟨?_, by norm_num, by norm_num; linarith⟩
    have := rep_zpow 9158400001 (-1) (by norm_num) (by norm_num)
    convert this using 1
    norm_num
  · exact ⟨by simpa using rep_nat 4579203600 (by norm_num), by norm_num, hb'⟩

/-- Rounding up. -/
noncomputable def up : Arith where
  rnd x := -down.rnd (-x)
  mono := fun _ _ h => neg_le_neg (down.mono (neg_le_neg h))
  rep := fun _ => (down.rep _).neg
  fix := fun x hx => by rw [down.fix _ hx.neg, neg_neg]

theorem up_half : up.rnd (2 ^ 54 - 1) = 2 ^ 54 := by
  have h1 : (2 : ℝ) ^ 54 - 1 ≤ up.rnd (2 ^ 54 - 1) := by
    show _ ≤ -down.rnd (-_)
    linarith [down_le (-((2 : ℝ) ^ 54 - 1))]
  have h2 : up.rnd (2 ^ 54 - 1) ≤ 2 ^ 54 := by
    have hr : Rep ((2 : ℝ) ^ 54) := by exact_mod_cast rep_pow 54 (by norm_num)
    have := up.mono (show (2 : ℝ) ^ 54 - 1 ≤ 2 ^ 54 by linarith)
    rwa [up.fix _ hr] at this
  obtain ⟨m, hm⟩ := rep_spacing (up.rep (2 ^ 54 - 1)) (j := 0) (by
    refine lt_of_lt_of_le ?_ (h1.trans (le_abs_self _))
    norm_num)
  rw [hm] at h1 h2 ⊢
  norm_num at h1 h2 ⊢
  have g1 : (18014398509481983 : ℤ) ≤ m * 2 := by exact_mod_cast h1
  have g2 : m * 2 ≤ (18014398509481984 : ℤ) := by exact_mod_cast h2
  have : m = 9007199254740992 := by omega
  rw [this]
  norm_num

example : halves up (.fin (2 ^ 53)) (.fin (2 ^ 53 - 1)) (.fin (2 ^ 53)) = (true, false) := (C138_halves_false up up_half).1

/-- The first day of a window. -/
example (A : Arith) : inWindow A (.fin 53000) (.fin 55000) (seconds A (.fin 53000)) = true :=
  have h : ∀ x : ℝ, 0 ≤ x → x ≤ 60000 → |x| ≤ (2 : ℝ) ^ (900 : ℤ) := fun x h0 h1 => by
    rw [abs_of_nonneg h0]
    exact h1.trans (le_trans (by norm_num : (60000 : ℝ) ≤ (2 : ℝ) ^ (16 : ℤ)) (zpow_le_zpow_right₀ (by norm_num) (by norm_num)))
  (C138_window A (h 53000 (by norm_num) (by norm_num)) (h 53000 (by norm_num) (by norm_num)) (h 55000 (by norm_num) (by norm_num))).1 le_rfl (by norm_num)

/-- Rounding to nearest. -/
example (r : Fl) : inBin near (.fin (7846183516615632 * (2 : ℝ) ^ (-37 : ℤ))) r (seconds near (.fin (7846183516615632 * (2 : ℝ) ^ (-37 : ℤ)))) = false :=
  C138_bins_false near near_nearest r

end Verif.Ieee
