import Verif.Props.Cliques
import Verif.Props.LikelihoodJoint

/-!
# Property C49, continued: several classes of common signals

When the classes share columns of the pulsars, but in the same way in all of them, the labels separate the covariance.
-/

set_option linter.unusedSectionVars false

namespace Verif.PhiInv

open Verif Verif.Kernel Verif.PtaPhi
open Matrix hiding blockDiag row

variable {K : Type} [Field K]

/-- What is known of the labels after some groups: each has one label, and nothing else is labelled. -/
structure Seen (c : Cliques) (seen : List (List Nat)) : Prop where
  ok : LabelsOk c
  one : ∀ r ∈ seen, OneLabel c r
  only : ∀ i, c.label i ≠ -1 → ∃ r ∈ seen, i ∈ r

/-- Groups that meet are the same. -/
def Alike' (rs : List (List Nat)) : Prop := ∀ r ∈ rs, ∀ s ∈ rs, (∃ i ∈ r, i ∈ s) → ∀ j ∈ r, j ∈ s

theorem Seen.touch {c : Cliques} {seen : List (List Nat)} (h : Seen c seen) (r : List Nat)
    (hr : ∀ s ∈ seen, (∃ i ∈ r, i ∈ s) → ∀ j ∈ r, j ∈ s) : Touch c r := by
  intro i hi j hj hli _
  obtain ⟨s, hs, his⟩ := h.only i hli
  exact (h.one s hs i his j (hr s hs ⟨i, hi, his⟩ j hj)).1

theorem touchRows_aligned (rs : List (List Nat)) : ∀ (c : Cliques) (seen : List (List Nat)), Seen c seen → (∀ r ∈ rs, r ≠ []) →
    Alike' (seen ++ rs) → TouchRows c rs ∧ ∀ c', setRows rs c = .ok c' → Seen c' (seen ++ rs) := by
  induction rs with
  | nil =>
    intro c seen h _ _
    refine ⟨trivial, fun c' e => ?_⟩
    cases e
    simpa using h
  | cons r t ih =>
    intro c seen h h0 ha
    have ht : Touch c r := h.touch r fun s hs => ha r (by simp) s (by simp [hs])
    obtain ⟨c1, e1, g1, g2, g3, g4⟩ := set_spec c r h.ok (h0 r (by simp)) ht
    have hs : Seen c1 (seen ++ [r]) := by
      refine ⟨g1, fun s hs => ?_, fun i hi => ?_⟩
      · rcases List.mem_append.1 hs with hs | hs
        · exact (h.one s hs).keep g3
        · rw [List.mem_singleton.1 hs]; exact g2
      · by_cases hir : i ∈ r
        · exact ⟨r, by simp, hir⟩
        · rw [g4 i hir] at hi
          obtain ⟨s, hs, his⟩ := h.only i hi
          exact ⟨s, by simp [hs], his⟩
    obtain ⟨i1, i2⟩ := ih c1 (seen ++ [r]) hs (fun s hs => h0 s (by simp [hs])) (by simpa using ha)
    constructor
    · refine ⟨h0 r (by simp), ht, fun c' ec => ?_⟩
      rw [e1] at ec
      cases ec
      exact i1
    · intro c' ec
      rw [setRows, e1] at ec
      simpa using i2 c' ec

/-- The groups of a list of classes. -/
inductive AllRows (sl : List (Nat × Nat)) : List (Klass K) → List (List Nat) → Prop
  | nil : AllRows sl [] []
  | cons {k t rs rt} (h : rows sl k.items = .ok rs) (ht : AllRows sl t rt) : AllRows sl (k :: t) (rs ++ rt)

theorem touchClasses_aligned {sl : List (Nat × Nat)} {ks : List (Klass K)} {rs : List (List Nat)} (h : AllRows sl ks rs) :
    ∀ (c : Cliques) (seen : List (List Nat)), Seen c seen → (∀ r ∈ rs, r ≠ []) → Alike' (seen ++ rs) → TouchClasses sl c ks := by
  induction h with
  | nil => intro c seen _ _ _; trivial
  | @cons k t rs rt h ht ih =>
    intro c seen hs h0 ha
    obtain ⟨i1, i2⟩ := touchRows_aligned rs c seen hs (fun r hr => h0 r (by simp [hr])) (by
      intro r hr s hs'
      exact ha r (by rcases List.mem_append.1 hr with h | h <;> simp [h]) s (by rcases List.mem_append.1 hs' with h | h <;> simp [h]))
    refine ⟨rs, h, i1, fun c' ec => ih c' (seen ++ rs) (i2 c' ec) (fun r hr => h0 r (by simp [hr])) (by simpa using ha)⟩

/-- The classes share positions in the same way in all pulsars: where an entry of one class has the position of an entry of
another, so have the corresponding entries in the other pulsars. -/
def SameShare (ks : List (Klass K)) : Prop :=
  ∀ k ∈ ks, ∀ k' ∈ ks, ∀ x ∈ k.items, ∀ y ∈ k'.items, x.psr = y.psr → ∀ p q, p < x.idx.length → q < y.idx.length →
    x.idx.getD p 0 = y.idx.getD q 0 → ∀ z ∈ k.items, ∃ w ∈ k'.items, w.psr = z.psr ∧ w.idx.getD q 0 = z.idx.getD p 0

theorem klass_lens {sl : List (Nat × Nat)} {k : Klass K} (hk : KlassOk sl k) (hv : VecKlass k) (it : Item) (t : List Item)
    (hit : k.items = it :: t) : ∀ x ∈ k.items, x.idx.length = it.idx.length := by
  intro x hx
  rw [hit] at hx
  rcases List.mem_cons.1 hx with rfl | hx
  · rfl
  · obtain ⟨q, hq⟩ := List.mem_iff_getElem?.1 hx
    have hpair : ((it, 0), (x, q + 1)) ∈ pairs k.items.zipIdx := by
      rw [mem_pairs]
      refine ⟨0, q + 1, by omega, ?_, ?_⟩
      · rw [hit]; simp
      · rw [hit]; simp [List.getElem?_zipIdx, hq, Nat.add_comm]
    have := hk.2 _ hpair
    obtain ⟨m, w, ec⟩ := hv _ hpair
    rw [ec] at this
    exact this.2.symm

theorem allRows (sl : List (Nat × Nat)) : ∀ ks : List (Klass K), (∀ k ∈ ks, KlassOk sl k) → (∀ k ∈ ks, VecKlass k) → (∀ k ∈ ks, k.items ≠ []) →
    ∃ rs, AllRows sl ks rs ∧ ∀ r ∈ rs, ∃ k ∈ ks, ∃ p, r = row sl k.items p ∧ ∀ x ∈ k.items, p < x.idx.length := by
  intro ks
  induction ks with
  | nil => intro _ _ _; exact ⟨[], .nil, by simp⟩
  | cons k t ih =>
    intro hk hv h0
    obtain ⟨rt, h1, h2⟩ := ih (fun x hx => hk x (by simp [hx])) (fun x hx => hv x (by simp [hx])) (fun x hx => h0 x (by simp [hx]))
    obtain ⟨it, l, hit⟩ : ∃ it t, k.items = it :: t := by
      cases h : k.items with
      | nil => exact absurd h (h0 k (by simp))
      | cons a t => exact ⟨a, t, rfl⟩
    have hlen := klass_lens (hk k (by simp)) (hv k (by simp)) it l hit
    have hrows : rows sl k.items = .ok ((List.range it.idx.length).map (row sl k.items)) := by
      rw [hit, rows, if_neg]
      rintro ⟨x, hx, hne⟩
      exact hne (hlen x (by rw [hit]; simp [hx]))
    refine ⟨_, .cons hrows h1, fun r hr => ?_⟩
    rcases List.mem_append.1 hr with hr | hr
    · obtain ⟨p, hp, rfl⟩ := List.mem_map.1 hr
      exact ⟨k, by simp, p, rfl, fun x hx => by rw [hlen x hx]; exact List.mem_range.1 hp⟩
    · obtain ⟨k', hk', p, e, hp⟩ := h2 r hr
      exact ⟨k', by simp [hk'], p, e, hp⟩

/-- The hypotheses of C49 hold for classes that share positions in the same way in all pulsars. -/
theorem touch_aligned (phis : List (Option (Kern K))) (ks : List (Klass K)) (hd : ∀ x, some x ∈ phis → ∃ n v, x = .one n v)
    (hk : ∀ k ∈ ks, KlassOk (slices phis 0) k) (hv : ∀ k ∈ ks, VecKlass k) (h0 : ∀ k ∈ ks, k.items ≠ [])
    (hp : ∀ k ∈ ks, ∀ it ∈ k.items, it.psr < phis.length) (hs : SameShare ks) :
    TouchClasses (slices phis 0) (setPulsarCliques phis 0 Cliques.none) ks := by
  rw [setPulsarCliques_diag phis 0 _ hd]
  obtain ⟨rs, h1, h2⟩ := allRows (slices phis 0) ks hk hv h0
  have hne : Seen Cliques.none [] := ⟨fun i => Or.inl rfl, by simp, fun i hi => absurd rfl hi⟩
  refine touchClasses_aligned h1 Cliques.none [] hne ?_ ?_
  · intro r hr
    obtain ⟨k, hk', p, rfl, -⟩ := h2 r hr
    unfold row
    rw [Ne, List.map_eq_nil_iff]
    exact h0 k hk'
  · intro r hr s hs'
    obtain ⟨k, hk1, p, rfl, hlp⟩ := h2 r (by simpa using hr)
    obtain ⟨k', hk2, q, rfl, hlq⟩ := h2 s (by simpa using hs')
    rintro ⟨i, hi, hi'⟩ j hj
    obtain ⟨x, hx, ex⟩ := List.mem_map.1 hi
    obtain ⟨y, hy, ey⟩ := List.mem_map.1 hi'
    have hxg : x.idx.getD p 0 ∈ x.idx := by rw [List.getD_eq_getElem _ _ (hlp x hx)]; exact List.getElem_mem (hlp x hx)
    have hyg : y.idx.getD q 0 ∈ y.idx := by rw [List.getD_eq_getElem _ _ (hlq y hy)]; exact List.getElem_mem (hlq y hy)
    have hpsr : x.psr = y.psr := slices_disjoint phis x.psr y.psr _ _ (hp k hk1 x hx) (hp k' hk2 y hy) (((hk k hk1).1 x hx).2 _ hxg)
      (((hk k' hk2).1 y hy).2 _ hyg) (ex.trans ey.symm)
    have hpos : x.idx.getD p 0 = y.idx.getD q 0 := by
      rw [← ey, hpsr] at ex
      omega
    obtain ⟨z, hz, ez⟩ := List.mem_map.1 hj
    obtain ⟨w, hw, e1, e2⟩ := hs k hk1 k' hk2 x hx y hy hpsr p q (hlp x hx) (hlq y hy) hpos z hz
    exact List.mem_map.2 ⟨w, hw, by rw [← ez, e1, e2]⟩

/-- C49: several classes of common signals with vector priors that share positions in the same way in all pulsars:
`get_phiinv` with method `cliques` returns the inverse of `get_phi` and the logarithm of its determinant. -/
theorem C49_aligned (phis : List (Option (Kern ℝ))) (ks : List (Klass ℝ)) (hne : ks ≠ []) (hd : ∀ x, some x ∈ phis → ∃ n v, x = .one n v)
    (hk : ∀ k ∈ ks, KlassOk (slices phis 0) k) (hv : ∀ k ∈ ks, VecKlass k) (h0 : ∀ k ∈ ks, k.items ≠ [])
    (hp : ∀ k ∈ ks, ∀ it ∈ k.items, it.psr < phis.length) (hs : SameShare ks) :
    ∃ M, getPhi phis ks = .ok (.big (total phis) M) ∧
      ((toMatrix (total phis) M).det ≠ 0 →
        getPhiinv phis ks = .ok ((toMatrix (total phis) M)⁻¹, Real.log |(toMatrix (total phis) M).det|)) := by
  refine C49_partial phis ks hne hk hv (fun x hx => ?_) (touch_aligned phis ks hd hk hv h0 hp hs)
  obtain ⟨n, v, rfl⟩ := hd x hx
  trivial

/-- Two classes on the columns of two pulsars, the second in the other order in both. -/
def shareA : Klass ℝ := ⟨[⟨0, [0, 1]⟩, ⟨1, [0, 1]⟩], fun _ _ => .one 2 fun _ => 1⟩

def shareB : Klass ℝ := ⟨[⟨0, [1, 0]⟩, ⟨1, [1, 0]⟩], fun _ _ => .one 2 fun _ => 1⟩

example : SameShare [shareA, shareB] ∧ ∀ k ∈ [shareA, shareB], k.items ≠ [] ∧ VecKlass k ∧ KlassOk (slices twoPhis 0) k := by
  constructor
  · intro k hk k' hk' x hx y hy _ p q hp hq he z hz
    have h1 : k = shareA ∨ k = shareB := by simpa using hk
    have h2 : k' = shareA ∨ k' = shareB := by simpa using hk'
    rcases h1 with rfl | rfl <;> rcases h2 with rfl | rfl <;>
    · simp only [shareA, shareB, List.mem_cons, List.not_mem_nil, or_false] at hx hy hz ⊢
      rcases hx with rfl | rfl <;> rcases hy with rfl | rfl <;> rcases hz with rfl | rfl <;>
      · simp only [List.length_cons, List.length_nil, Nat.zero_add] at hp hq
        interval_cases p <;> interval_cases q <;> simp at he ⊢
  · intro k hk
    have h1 : k = shareA ∨ k = shareB := by simpa using hk
    rcases h1 with rfl | rfl <;> refine ⟨by simp [shareA, shareB], ?_, ?_, ?_⟩
    · intro xy _; exact ⟨2, fun _ => 1, rfl⟩
    · intro it hit
      simp only [shareA, List.mem_cons, List.not_mem_nil, or_false] at hit
      rcases hit with rfl | rfl <;> simp [ItemOk, slices, twoPhis, Kern.size]
    · intro xy hxy
      obtain ⟨hx, hy⟩ := mem_of_mem_pairs hxy
      simp [shareA, CrossOk] at *
      rcases hx with h | h <;> rcases hy with h' | h' <;> simp [h, h']
    · intro xy _; exact ⟨2, fun _ => 1, rfl⟩
    · intro it hit
      simp only [shareB, List.mem_cons, List.not_mem_nil, or_false] at hit
      rcases hit with rfl | rfl <;> simp [ItemOk, slices, twoPhis, Kern.size]
    · intro xy hxy
      obtain ⟨hx, hy⟩ := mem_of_mem_pairs hxy
      simp [shareB, CrossOk] at *
      rcases hx with h | h <;> rcases hy with h' | h' <;> simp [h, h']

end Verif.PhiInv
