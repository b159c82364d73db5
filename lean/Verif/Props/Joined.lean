import Verif.Model.Joined
import Verif.Lemmas.Pairs
import Verif.Props.Collect
import Verif.Props.LikelihoodJoint
import Verif.Props.Orf
import Mathlib.Analysis.Matrix.Order

/-!
# Property C107: the likelihood of an array given by its signals, common processes included
-/

namespace Verif.Joined

open Verif Verif.Likelihood Verif.Noise Verif.Combine Verif.Collect Verif.Joint Matrix
open Verif.Kernel (Kern Arr)
open Verif.PhiInv (toMatrix)
open Verif.PtaPhi (entries phicross PSig Item Klass KlassOk ItemOk CrossOk slices spread pairs pairTerm klassTerm members)
open Verif.Partition (Svd)
open Verif.Orf (Pos orfMatrix)

variable {H : Type} [DecidableEq H]

/-! ## The prior of one pulsar -/

/-- `Σ X φ X` over the positions `l1` and `l2`. -/
noncomputable def bil (X : Nat → Nat → ℝ) (a b : Nat) (l1 : List Nat) (φ : Nat → Nat → ℝ) (l2 : List Nat) : ℝ :=
  ∑ p ∈ Finset.range l1.length, ∑ q ∈ Finset.range l2.length, X (l1.getD p 0) a * φ p q * X (l2.getD q 0) b

theorem phiLoop_form (n : Nat) (L : List (Col ℝ)) {sigs : List (BSig ℝ)} {ix : List (Option (List Nat))}
    (h : AllPoints L sigs ix) (hok : ∀ s ∈ sigs, SigOk s) (hn : ∀ o ∈ ix, ∀ l, o = some l → ∀ i ∈ l, i < n) :
    ∀ Φ : Kern ℝ, Φ.size = n → ∃ Φ', Combine.phiLoop (sigs.zip ix) Φ = .ok Φ' ∧ ∀ X a b, bigQuad n X Φ'.mat a b =
      bigQuad n X Φ.mat a b + ((sigs.zip ix).map fun x => x.2.elim 0 fun l => bil X a b l (amat x.1.phi) l).sum := by
  induction h with
  | nil => intro Φ _; exact ⟨Φ, rfl, fun X a b => by simp⟩
  | none hb ht ih =>
    intro Φ h1
    obtain ⟨Φ', e, h2⟩ := ih (fun s hs => hok s (by simp [hs])) (fun o ho => hn o (by simp [ho])) Φ h1
    refine ⟨Φ', e, fun X a b => ?_⟩
    rw [h2, List.zip_cons_cons, List.map_cons, List.sum_cons]
    simp
  | @some s t ix l F hb hp hnd ht ih =>
    intro Φ hs
    obtain ⟨hne, hlen, -, hsz, -⟩ := hok s (by simp) F hb
    have hl0 : l ≠ [] := by
      intro e
      have := hp.1
      rw [e, hlen] at this
      exact hne (List.length_eq_zero_iff.1 this.symm)
    have hll : l.length = F.length := hp.1.trans hlen
    obtain ⟨r, e1, hr, h3, h4⟩ := phi_step Φ s.phi l hnd hl0 (by rw [hs]; exact hn _ (by simp) l rfl) (hll ▸ hsz)
    obtain ⟨Φ', e, h2⟩ := ih (fun s hs => hok s (by simp [hs])) (fun o ho => hn o (by simp [ho])) r (hr.trans hs)
    refine ⟨Φ', ?_, fun X a b => ?_⟩
    · rw [List.zip_cons_cons, Combine.phiLoop, if_neg hl0, e1]
      exact e
    · rw [h2, bigQuad_step n X Φ.mat r.mat (amat s.phi) l hnd (hn _ (by simp) l rfl) h3 h4, List.zip_cons_cons, List.map_cons,
        List.sum_cons]
      simp only [Option.elim, bil]
      ring

/-- What the collection of a pulsar makes of its processes. -/
structure Facts (hash : Col ℝ → H) (sigs : List (BSig ℝ)) (T : Nat → Col ℝ) (Φ : Kern ℝ) : Prop where
  basis : getBasis hash sigs = .ok (some (ncol (idxOf hash sigs), T))
  phi : Combine.getPhi hash sigs = .ok (some Φ)
  size : Φ.size = ncol (idxOf hash sigs)
  pos : (toMatrix (ncol (idxOf hash sigs)) (entries Φ)).PosDef
  points : ∃ L, AllPoints L sigs (idxOf hash sigs) ∧ ∀ i, i < ncol (idxOf hash sigs) → T i = L.getD i fun _ => 0
  form : ∀ X a b, bigQuad (ncol (idxOf hash sigs)) X (entries Φ) a b =
    ((sigs.zip (idxOf hash sigs)).map fun x => x.2.elim 0 fun l => bil X a b l (amat x.1.phi) l).sum

theorem facts (hash : Col ℝ → H) (sigs : List (BSig ℝ)) (hok : ∀ s ∈ sigs, SigOk s) (ho : Ordered sigs)
    (hh : HashOk hash sigs) (hb : ∃ s ∈ sigs, s.basis ≠ none) (hpos : ∀ s ∈ sigs, PriorPos s) : ∃ T Φ, Facts hash sigs T Φ := by
  obtain ⟨n, T, Φ, h1, h2, h3, h4, -⟩ := C105_prior hash sigs hok ho hh hb hpos
  have hent : entries Φ = Φ.mat := by cases Φ <;> rfl
  obtain ⟨L, -, hL⟩ := combine_all hash sigs [] hok ho (by
    rintro c c' (h | ⟨s, hs, F, hF, hc⟩) (h' | ⟨s', hs', F', hF', hc'⟩)
    · simp at h
    · simp at h
    · simp at h'
    · exact hh s hs s' hs' F F' hF hF' c hc c' hc')
  have hL : AllPoints L sigs (idxOf hash sigs) := hL
  have hne : ¬ ∀ o ∈ idxOf hash sigs, o = none := by
    intro h
    unfold getBasis at h1
    simp only [if_pos h] at h1
    cases h1
  have hmem : ∀ o ∈ idxOf hash sigs, ∀ l, o = some l → ∀ i ∈ l, i < ncol (idxOf hash sigs) := by
    intro o ho l hl i hi
    rw [mem_iff_lt_ncol]
    exact List.mem_flatMap.2 ⟨o, ho, by rw [hl]; exact hi⟩
  obtain ⟨T', e, hT'⟩ := basisLoop_ok (ncol (idxOf hash sigs)) L hL hok hmem fun _ _ => 0
  obtain ⟨Φ', e', hΦ'⟩ := phiLoop_form (ncol (idxOf hash sigs)) L hL hok hmem (Kern.zeros (ncol (idxOf hash sigs))) rfl
  have hnT : n = ncol (idxOf hash sigs) ∧ T = T' := by
    unfold getBasis at h1
    simp only [if_neg hne, e] at h1
    cases h1
    exact ⟨rfl, rfl⟩
  obtain ⟨rfl, rfl⟩ := hnT
  obtain rfl : Φ = Φ' := by
    unfold Combine.getPhi at h2
    simp only [if_neg hne, e'] at h2
    cases h2; rfl
  refine ⟨T, Φ, h1, h2, h3, h4, ⟨L, hL, fun i hi => ?_⟩, fun X a b => ?_⟩
  · rw [mem_iff_lt_ncol] at hi
    obtain ⟨o, ho', hio⟩ := List.mem_flatMap.1 hi
    cases o with
    | none => simp at hio
    | some l => exact hT' i (.inl ⟨_, ho', l, rfl, hio⟩)
  · have hz : bigQuad (ncol (idxOf hash sigs)) X (Kern.zeros (ncol (idxOf hash sigs))).mat a b = 0 := by
      apply Finset.sum_eq_zero
      intro i _
      apply Finset.sum_eq_zero
      intro j _
      simp [Kern.zeros, Kern.mat, Kernel.diagMat]
    rw [hent, hΦ', hz, zero_add]

/-! ## The blocks -/

theorem blocks_sum (phis : List (Option (Kern ℝ))) (X : Nat → Nat → ℝ) (a b : Nat) : ∀ o,
    bigQuad (PtaPhi.total phis) (fun i => X (o + i)) (PtaPhi.blockDiag phis) a b = ((phis.zip (slices phis o)).map fun x =>
      x.1.elim 0 fun κ => bigQuad κ.size (fun i => X (x.2.1 + i)) (entries κ) a b).sum := by
  induction phis with
  | nil => intro o; simp [PtaPhi.total, bigQuad]
  | cons k t ih =>
    intro o
    cases k with
    | none => simpa [PtaPhi.total, PtaPhi.blockDiag, slices] using ih o
    | some κ =>
      have ih := ih (o + κ.size)
      simp only [PtaPhi.total, slices, List.zip_cons_cons, List.map_cons, List.sum_cons, Option.elim_some, ← ih]
      have hsplit : ∀ f : Nat → ℝ, ∑ i ∈ Finset.range (κ.size + PtaPhi.total t), f i =
          ∑ i ∈ Finset.range κ.size, f i + ∑ i ∈ Finset.range (PtaPhi.total t), f (κ.size + i) := fun f => Finset.sum_range_add f _ _
      unfold bigQuad
      rw [hsplit]
      congr 1
      · apply Finset.sum_congr rfl
        intro i hi
        rw [hsplit]
        have hi := Finset.mem_range.1 hi
        have : ∑ j ∈ Finset.range (PtaPhi.total t), X (o + i) a * PtaPhi.blockDiag (some κ :: t) i (κ.size + j) * X (o + (κ.size + j)) b = 0 := by
          apply Finset.sum_eq_zero
          intro j _
          simp [PtaPhi.blockDiag, hi]
        rw [this, add_zero]
        apply Finset.sum_congr rfl
        intro j hj
        have hj := Finset.mem_range.1 hj
        simp [PtaPhi.blockDiag, hi, hj]
      · apply Finset.sum_congr rfl
        intro i _
        rw [hsplit]
        have : ∑ j ∈ Finset.range κ.size, X (o + (κ.size + i)) a * PtaPhi.blockDiag (some κ :: t) (κ.size + i) j * X (o + j) b = 0 := by
          apply Finset.sum_eq_zero
          intro j hj
          have hj := Finset.mem_range.1 hj
          simp [PtaPhi.blockDiag, hj]
        rw [this, zero_add]
        apply Finset.sum_congr rfl
        intro j _
        simp [PtaPhi.blockDiag, Nat.add_assoc]

theorem slices_end (phis : List (Option (Kern ℝ))) : ∀ (o a : Nat), a < phis.length →
    ((slices phis o).getD a (0, 0)).1 + ((slices phis o).getD a (0, 0)).2 ≤ o + PtaPhi.total phis := by
  induction phis with
  | nil => intro o a h; simp at h
  | cons k t ih =>
    intro o a h
    cases a with
    | zero => cases k <;> simp [slices, PtaPhi.total]
    | succ a =>
      have h' : a < t.length := by simpa using h
      cases k with
      | none => simpa [slices, PtaPhi.total] using ih o a h'
      | some κ =>
        have := ih (o + κ.size) a h'
        simp only [slices, PtaPhi.total, List.getD_cons_succ] at this ⊢
        omega

theorem spread_sum (n : Nat) (X : Nat → Nat → ℝ) (s1 : Nat) (l1 : List Nat) (s2 : Nat) (l2 : List Nat) (φ : Nat → Nat → ℝ)
    (h1 : ∀ i ∈ l1, s1 + i < n) (h2 : ∀ i ∈ l2, s2 + i < n) (a b : Nat) :
    bigQuad n X (spread s1 l1 s2 l2 φ) a b = bil X a b (l1.map (s1 + ·)) φ (l2.map (s2 + ·)) := by
  have hget : ∀ (l : List Nat) (s p : Nat), p < l.length → (l.map (s + ·)).getD p 0 = s + l.getD p 0 := by
    intro l s p hp
    simp [List.getD_eq_getElem?_getD, List.getElem?_eq_getElem hp]
  have hmem : ∀ (l : List Nat) (p : Nat), p < l.length → l.getD p 0 ∈ l := by
    intro l p hp
    rw [List.getD_eq_getElem?_getD, List.getElem?_eq_getElem hp]
    exact List.getElem_mem hp
  have e1 : bigQuad n X (spread s1 l1 s2 l2 φ) a b = ∑ p ∈ Finset.range l1.length, ∑ q ∈ Finset.range l2.length,
      ∑ i ∈ Finset.range n, ∑ j ∈ Finset.range n,
        if s1 + l1.getD p 0 = i ∧ s2 + l2.getD q 0 = j then X i a * φ p q * X j b else 0 := by
    unfold bigQuad spread
    have : ∀ i j : Nat, X i a * (∑ p ∈ Finset.range l1.length, ∑ q ∈ Finset.range l2.length,
        if s1 + l1.getD p 0 = i ∧ s2 + l2.getD q 0 = j then φ p q else 0) * X j b =
        ∑ p ∈ Finset.range l1.length, ∑ q ∈ Finset.range l2.length,
          if s1 + l1.getD p 0 = i ∧ s2 + l2.getD q 0 = j then X i a * φ p q * X j b else 0 := by
      intro i j
      rw [Finset.mul_sum, Finset.sum_mul]
      apply Finset.sum_congr rfl
      intro p _
      rw [Finset.mul_sum, Finset.sum_mul]
      apply Finset.sum_congr rfl
      intro q _
      split <;> simp
    simp only [this]
    have c1 : ∀ i : Nat, ∑ j ∈ Finset.range n, ∑ p ∈ Finset.range l1.length, ∑ q ∈ Finset.range l2.length,
        (if s1 + l1.getD p 0 = i ∧ s2 + l2.getD q 0 = j then X i a * φ p q * X j b else 0) =
        ∑ p ∈ Finset.range l1.length, ∑ q ∈ Finset.range l2.length, ∑ j ∈ Finset.range n,
        (if s1 + l1.getD p 0 = i ∧ s2 + l2.getD q 0 = j then X i a * φ p q * X j b else 0) := by
      intro i
      rw [Finset.sum_comm]
      exact Finset.sum_congr rfl fun p _ => Finset.sum_comm
    simp only [c1]
    rw [Finset.sum_comm]
    exact Finset.sum_congr rfl fun p _ => Finset.sum_comm
  rw [e1]
  unfold bil
  simp only [List.length_map]
  apply Finset.sum_congr rfl
  intro p hp
  have hp := Finset.mem_range.1 hp
  apply Finset.sum_congr rfl
  intro q hq
  have hq := Finset.mem_range.1 hq
  rw [hget _ _ _ hp, hget _ _ _ hq]
  rw [Finset.sum_eq_single (s1 + l1.getD p 0)]
  · rw [Finset.sum_eq_single (s2 + l2.getD q 0)]
    · simp
    · intro j _ hj
      rw [if_neg]
      rintro ⟨-, h⟩
      exact hj h.symm
    · intro h
      exact absurd (Finset.mem_range.2 (h2 _ (hmem _ _ hq))) h
  · intro i _ hi
    apply Finset.sum_eq_zero
    intro j _
    rw [if_neg]
    rintro ⟨h, -⟩
    exact hi h.symm
  · intro h
    exact absurd (Finset.mem_range.2 (h1 _ (hmem _ _ hp))) h

/-! ## All the processes of the array -/

/-- A process: the number of its pulsar, the pulsar, and its positions in the basis of the pulsar. -/
structure Slot where
  a : Nat
  p : JPsr
  g : GSig
  idx : List Nat

/-- The processes of a pulsar that have a basis. -/
def slotsAt (a : Nat) (p : JPsr) (gps : List GSig) (ix : List (Option (List Nat))) : List Slot :=
  (gps.zip ix).filterMap fun x => x.2.map fun l => ⟨a, p, x.1, l⟩

/-- Those of the array. -/
noncomputable def slots (hash : Col ℝ → H) (orf : Nat → Pos → Pos → ℝ) (ps : List JPsr) : List Slot :=
  ps.zipIdx.flatMap fun x => slotsAt x.2 x.1 x.1.gps (idxOf hash (x.1.gps.map (bsig orf x.1.pos)))

theorem slotsAt_items (f : GSig → BSig ℝ) (hf : ∀ g, (f g).basis = g.basis) (a : Nat) (p : JPsr) (c : Nat) (L : List (Col ℝ)) :
    ∀ (gps : List GSig) (ix : List (Option (List Nat))), AllPoints L (gps.map f) ix →
    ((List.zipWith psig gps ix).filter fun s => s.common && !s.coeff && (s.cls == c)).map (fun s => (⟨a, s.idx⟩ : Item)) =
      ((slotsAt a p gps ix).filter fun s => decide (s.g.cls = some c)).map (fun s => ⟨s.a, s.idx⟩) ∧
    (gps.filter fun g => g.basis.isSome && decide (g.cls = some c)).map (fun g => (g.prior, p.pos)) =
      ((slotsAt a p gps ix).filter fun s => decide (s.g.cls = some c)).map (fun s => (s.g.prior, s.p.pos)) := by
  intro gps
  induction gps with
  | nil => intro ix h; cases h; exact ⟨rfl, rfl⟩
  | cons g t ih =>
    intro ix h
    rw [List.map_cons] at h
    cases h with
    | none hb ht =>
      rw [hf] at hb
      obtain ⟨h1, h2⟩ := ih _ ht
      constructor
      · rw [List.zipWith_cons_cons, List.filter_cons_of_neg (by simp [psig, hb]), h1]
        rfl
      · rw [List.filter_cons_of_neg (by simp [hb]), h2]
        rfl
    | @some _ _ ix l F hb hp hn ht =>
      rw [hf] at hb
      obtain ⟨h1, h2⟩ := ih _ ht
      have e : slotsAt a p (g :: t) (some l :: ix) = ⟨a, p, g, l⟩ :: slotsAt a p t ix := rfl
      rw [e]
      by_cases hc : g.cls = some c
      · constructor
        · rw [List.zipWith_cons_cons, List.filter_cons_of_pos (by simp [psig, hb, hc]), List.filter_cons_of_pos (by simp [hc]),
            List.map_cons, List.map_cons, h1]
          rfl
        · rw [List.filter_cons_of_pos (by simp [hb, hc]), List.filter_cons_of_pos (by simp [hc]), List.map_cons, List.map_cons, h2]
      · constructor
        · rw [List.zipWith_cons_cons, List.filter_cons_of_neg, List.filter_cons_of_neg (by simp [hc]), h1]
          cases hg : g.cls with
          | none => simp [psig, hg]
          | some d =>
            have : d ≠ c := fun e => hc (by rw [hg, e])
            simp [psig, hg, this]
        · rw [List.filter_cons_of_neg (by simp [hc]), List.filter_cons_of_neg (by simp [hc]), h2]

theorem slotsAt_mem (f : GSig → BSig ℝ) (hf : ∀ g, (f g).basis = g.basis) (hf' : ∀ g, (f g).basisAt = g.basisAt) (a : Nat) (p : JPsr)
    (L : List (Col ℝ)) : ∀ (gps : List GSig) (ix : List (Option (List Nat))), AllPoints L (gps.map f) ix →
    ∀ s ∈ slotsAt a p gps ix, s.a = a ∧ s.p = p ∧ s.g ∈ gps ∧ some s.idx ∈ ix ∧ s.g.basis ≠ none ∧ Points L s.idx s.g.basisAt ∧
      s.idx.Nodup := by
  intro gps
  induction gps with
  | nil => intro ix h; cases h; intro s hs; cases hs
  | cons g t ih =>
    intro ix h s hs
    rw [List.map_cons] at h
    cases h with
    | none hb ht =>
      obtain ⟨h1, h2, h3, h4, h5⟩ := ih _ ht s hs
      exact ⟨h1, h2, by simp [h3], by simp [h4], h5⟩
    | @some _ _ ix l F hb hp hn ht =>
      have e : slotsAt a p (g :: t) (some l :: ix) = ⟨a, p, g, l⟩ :: slotsAt a p t ix := rfl
      rw [e] at hs
      rcases List.mem_cons.1 hs with rfl | hs
      · rw [hf] at hb
        rw [hf'] at hp
        exact ⟨rfl, rfl, by simp, by simp, by simp [hb], hp, hn⟩
      · obtain ⟨h1, h2, h3, h4, h5⟩ := ih _ ht s hs
        exact ⟨h1, h2, by simp [h3], by simp [h4], h5⟩

theorem slotsAt_sum (f : GSig → BSig ℝ) (a : Nat) (p : JPsr) (F : BSig ℝ → List Nat → ℝ) : ∀ (gps : List GSig) (ix : List (Option (List Nat))),
    (((gps.map f).zip ix).map fun x => x.2.elim 0 fun l => F x.1 l).sum = ((slotsAt a p gps ix).map fun s => F (f s.g) s.idx).sum := by
  intro gps
  induction gps with
  | nil => intro ix; rfl
  | cons g t ih =>
    intro ix
    cases ix with
    | nil => rfl
    | cons o ix =>
      rw [List.map_cons, List.zip_cons_cons, List.map_cons, List.sum_cons, ih]
      cases o with
      | none => rw [Option.elim_none, zero_add]; rfl
      | some l => rfl

theorem sum_flatMap {α β : Type} (l : List α) (f : α → List β) (g : β → ℝ) :
    ((l.flatMap f).map g).sum = (l.map fun x => ((f x).map g).sum).sum := by
  induction l with
  | nil => rfl
  | cons a t ih => rw [List.flatMap_cons, List.map_append, List.sum_append, ih, List.map_cons, List.sum_cons]

theorem zip_eq_zipIdx {α β : Type} (d : β) (l : List α) (m : List β) (h : l.length = m.length) :
    l.zip m = l.zipIdx.map fun x => (x.1, m.getD x.2 d) := by
  apply List.ext_getElem
  · simp [h]
  · intro i h1 h2
    simp only [List.length_zip] at h1
    simp [List.getD_eq_getElem?_getD, List.getElem?_eq_getElem (show i < m.length by omega)]

/-- The start of the span of a pulsar. -/
def off (sl : List (Nat × Nat)) (a : Nat) : Nat := (sl.getD a (0, 0)).1

/-- The positions of a process among those of the array. -/
def gl (sl : List (Nat × Nat)) (s : Slot) : List Nat := s.idx.map (off sl s.a + ·)

theorem bil_shift (X : Nat → Nat → ℝ) (a b o : Nat) (l : List Nat) (φ : Nat → Nat → ℝ) :
    bil (fun i => X (o + i)) a b l φ l = bil X a b (l.map (o + ·)) φ (l.map (o + ·)) := by
  unfold bil
  simp only [List.length_map]
  have hget : ∀ p, p < l.length → (l.map (o + ·)).getD p 0 = o + l.getD p 0 := by
    intro p hp
    simp [List.getD_eq_getElem?_getD, List.getElem?_eq_getElem hp]
  apply Finset.sum_congr rfl
  intro p hp
  apply Finset.sum_congr rfl
  intro q hq
  rw [hget p (Finset.mem_range.1 hp), hget q (Finset.mem_range.1 hq)]

/-- The pulsars' own priors. -/
theorem own_sum (hash : Col ℝ → H) (orf : Nat → Pos → Pos → ℝ) (ps : List JPsr) (T : JPsr → Nat → Col ℝ) (Φ : JPsr → Kern ℝ)
    (hF : ∀ p ∈ ps, Facts hash (p.gps.map (bsig orf p.pos)) (T p) (Φ p)) (X : Nat → Nat → ℝ) (a b : Nat) :
    bigQuad (PtaPhi.total (ps.map fun p => some (Φ p))) X (PtaPhi.blockDiag (ps.map fun p => some (Φ p))) a b =
      ((slots hash orf ps).map fun s => bil X a b (gl (slices (ps.map fun p => some (Φ p)) 0) s) (amat (bsig orf s.p.pos s.g).phi)
        (gl (slices (ps.map fun p => some (Φ p)) 0) s)).sum := by
  have h := blocks_sum (ps.map fun p => some (Φ p)) X a b 0
  simp only [Nat.zero_add] at h
  rw [h, zip_eq_zipIdx (0, 0) _ _ (by rw [PtaPhi.slices_length]), List.zipIdx_map, List.map_map, List.map_map]
  unfold slots
  rw [sum_flatMap]
  congr 1
  apply List.map_congr_left
  rintro ⟨p, i⟩ hx
  have hp : p ∈ ps := List.mem_of_getElem? (List.mem_zipIdx_iff_getElem?.1 hx)
  have f := hF p hp
  simp only [Function.comp, Prod.map, Option.elim_some, id]
  rw [f.size, f.form, slotsAt_sum (bsig orf p.pos) i p fun s l => bil _ a b l (amat s.phi) l]
  congr 1
  apply List.map_congr_left
  intro s hs
  obtain ⟨L, hL, -⟩ := f.points
  obtain ⟨h1, h2, -⟩ := slotsAt_mem (bsig orf p.pos) (fun _ => rfl) (fun _ => rfl) i p L _ _ hL s hs
  rw [bil_shift, h2, gl, h1]
  rfl

/-! ## The classes -/

theorem members_slots (hash : Col ℝ → H) (orf : Nat → Pos → Pos → ℝ) (ps : List JPsr) (T : JPsr → Nat → Col ℝ) (Φ : JPsr → Kern ℝ)
    (hF : ∀ p ∈ ps, Facts hash (p.gps.map (bsig orf p.pos)) (T p) (Φ p)) (c : Nat) :
    members (ps.map (psigs hash orf)) c =
      ((slots hash orf ps).filter fun s => decide (s.g.cls = some c)).map (fun s => ⟨s.a, s.idx⟩) ∧
    ofClass ps c = ((slots hash orf ps).filter fun s => decide (s.g.cls = some c)).map (fun s => (s.g.prior, s.p.pos)) := by
  have hx : ∀ x ∈ ps.zipIdx, x.1 ∈ ps := fun x hx => List.mem_of_getElem? (List.mem_zipIdx_iff_getElem?.1 hx)
  unfold slots members ofClass
  rw [List.zipIdx_map, List.flatMap_map, List.filter_flatMap, List.map_flatMap, List.map_flatMap]
  constructor
  · apply List.flatMap_congr
    rintro ⟨p, i⟩ hpi
    obtain ⟨L, hL, -⟩ := (hF p (hx _ hpi)).points
    have h := (slotsAt_items (bsig orf p.pos) (fun _ => rfl) i p c L _ _ hL).1
    refine Eq.trans (b := if (idxOf hash (p.gps.map (bsig orf p.pos))).any Option.isSome = true then _ else []) rfl ?_
    split
    · exact h
    · rename_i hn
      have : slotsAt i p p.gps (idxOf hash (p.gps.map (bsig orf p.pos))) = [] := by
        unfold slotsAt
        rw [List.filterMap_eq_nil_iff]
        rintro ⟨g, o⟩ hgo
        have ho := (List.of_mem_zip hgo).2
        cases o with
        | none => rfl
        | some l => exact absurd (List.any_eq_true.2 ⟨_, ho, rfl⟩) hn
      rw [this]
      rfl
  · have e : ps.flatMap (fun p => (p.gps.filter fun g => g.basis.isSome && decide (g.cls = some c)).map fun g => (g.prior, p.pos)) =
        ps.zipIdx.flatMap fun x => (x.1.gps.filter fun g => g.basis.isSome && decide (g.cls = some c)).map fun g => (g.prior, x.1.pos) := by
      have : ps = ps.zipIdx.map Prod.fst := by simp
      conv_lhs => rw [this]
      rw [List.flatMap_map]
    rw [e]
    apply List.flatMap_congr
    rintro ⟨p, i⟩ hpi
    obtain ⟨L, hL, -⟩ := (hF p (hx _ hpi)).points
    exact (slotsAt_items (bsig orf p.pos) (fun _ => rfl) i p c L _ _ hL).2

theorem slices_size (phis : List (Option (Kern ℝ))) : ∀ (o a : Nat) (κ : Kern ℝ), phis[a]? = some (some κ) →
    ((slices phis o).getD a (0, 0)).2 = κ.size := by
  induction phis with
  | nil => intro o a κ h; simp at h
  | cons k t ih =>
    intro o a κ h
    cases a with
    | zero =>
      simp only [List.getElem?_cons_zero, Option.some.injEq] at h
      subst h
      simp [slices]
    | succ a =>
      have h' : t[a]? = some (some κ) := by simpa using h
      cases k with
      | none => simpa [slices] using ih o a κ h'
      | some k => simpa [slices] using ih (o + k.size) a κ h'

/-- A process of the array and its pulsar. -/
structure SlotOk (ps : List JPsr) (T : JPsr → Nat → Col ℝ) (Φ : JPsr → Kern ℝ) (s : Slot) (p : JPsr) : Prop where
  psr : ps[s.a]? = some p
  eq : s.p = p
  mem : s.g ∈ p.gps
  basis : s.g.basis ≠ none
  len : s.idx.length = s.g.basisAt.length
  nodup : s.idx.Nodup
  lt : ∀ i ∈ s.idx, i < (Φ p).size
  col : ∀ q i : Nat, s.idx[q]? = some i → T p i = s.g.basisAt.getD q fun _ => 0

theorem slots_ok (hash : Col ℝ → H) (orf : Nat → Pos → Pos → ℝ) (ps : List JPsr) (T : JPsr → Nat → Col ℝ) (Φ : JPsr → Kern ℝ)
    (hF : ∀ p ∈ ps, Facts hash (p.gps.map (bsig orf p.pos)) (T p) (Φ p)) (s : Slot) (hs : s ∈ slots hash orf ps) :
    ∃ p, SlotOk ps T Φ s p := by
  obtain ⟨⟨p, i⟩, hx, hs⟩ := List.mem_flatMap.1 hs
  have hpi : ps[i]? = some p := List.mem_zipIdx_iff_getElem?.1 hx
  have f := hF p (List.mem_of_getElem? hpi)
  obtain ⟨L, hL, hT⟩ := f.points
  obtain ⟨h1, h2, h3, h4, h5, h6, h7⟩ := slotsAt_mem (bsig orf p.pos) (fun _ => rfl) (fun _ => rfl) i p L _ _ hL s hs
  have hlt : ∀ j ∈ s.idx, j < ncol (idxOf hash (p.gps.map (bsig orf p.pos))) := by
    intro j hj
    rw [mem_iff_lt_ncol]
    exact List.mem_flatMap.2 ⟨_, h4, hj⟩
  refine ⟨p, h1 ▸ hpi, h2, h3, h5, h6.1, h7, fun j hj => by rw [f.size]; exact hlt j hj, fun q j hj => ?_⟩
  rw [hT j (hlt j (List.mem_of_getElem? hj)), List.getD_eq_getElem?_getD, List.getD_eq_getElem?_getD, h6.2 q j hj]

theorem SlotOk.range {ps : List JPsr} {T : JPsr → Nat → Col ℝ} {Φ : JPsr → Kern ℝ} {s : Slot} {p : JPsr} (h : SlotOk ps T Φ s p) :
    (∀ i ∈ s.idx, i < ((slices (ps.map fun p => some (Φ p)) 0).getD s.a (0, 0)).2) ∧
      ∀ i ∈ s.idx, off (slices (ps.map fun p => some (Φ p)) 0) s.a + i < PtaPhi.total (ps.map fun p => some (Φ p)) := by
  have h2 : ((slices (ps.map fun p => some (Φ p)) 0).getD s.a (0, 0)).2 = (Φ p).size :=
    slices_size _ 0 s.a (Φ p) (by rw [List.getElem?_map, h.psr]; rfl)
  have hlt : s.a < ps.length := (List.getElem?_eq_some_iff.1 h.psr).1
  have h3 := slices_end (ps.map fun p => some (Φ p)) 0 s.a (by simpa using hlt)
  refine ⟨fun i hi => by rw [h2]; exact h.lt i hi, fun i hi => ?_⟩
  have := h.lt i hi
  unfold off
  omega

theorem bigQuad_sum {α : Type} (n : Nat) (X : Nat → Nat → ℝ) (a b : Nat) (l : List α) (G : Nat → Nat → α → ℝ) :
    bigQuad n X (fun i j => (l.map (G i j)).sum) a b = (l.map fun z => bigQuad n X (fun i j => G i j z) a b).sum := by
  induction l with
  | nil => simp [bigQuad]
  | cons z t ih =>
    rw [List.map_cons, List.sum_cons, ← ih]
    simp only [bigQuad, List.map_cons, List.sum_cons, mul_add, add_mul, Finset.sum_add_distrib]

theorem bigQuad_add (n : Nat) (X : Nat → Nat → ℝ) (a b : Nat) (F G : Nat → Nat → ℝ) :
    bigQuad n X (fun i j => F i j + G i j) a b = bigQuad n X F a b + bigQuad n X G a b := by
  simp only [bigQuad, mul_add, add_mul, Finset.sum_add_distrib]

/-- The term of a pair of processes of a class. -/
noncomputable def pairBil (orf : Nat → Pos → Pos → ℝ) (sl : List (Nat × Nat)) (c : Nat) (X : Nat → Nat → ℝ) (a b : Nat)
    (z : Slot × Slot) : ℝ :=
  bil X a b (gl sl z.1) (amat (phicross z.1.g.prior (orf c z.1.p.pos z.2.p.pos))) (gl sl z.2) +
    bil X a b (gl sl z.2) (amat (phicross z.1.g.prior (orf c z.1.p.pos z.2.p.pos))) (gl sl z.1)

theorem klass_sum (hash : Col ℝ → H) (orf : Nat → Pos → Pos → ℝ) (ps : List JPsr) (T : JPsr → Nat → Col ℝ) (Φ : JPsr → Kern ℝ)
    (hF : ∀ p ∈ ps, Facts hash (p.gps.map (bsig orf p.pos)) (T p) (Φ p)) (c : Nat) (X : Nat → Nat → ℝ) (a b : Nat) :
    bigQuad (PtaPhi.total (ps.map fun p => some (Φ p))) X (fun i j => klassTerm (slices (ps.map fun p => some (Φ p)) 0) i j
        ⟨members (ps.map (psigs hash orf)) c, cross orf ps c⟩) a b =
      ((pairs ((slots hash orf ps).filter fun s => decide (s.g.cls = some c))).map
        (pairBil orf (slices (ps.map fun p => some (Φ p)) 0) c X a b)).sum := by
  obtain ⟨h1, h2⟩ := members_slots hash orf ps T Φ hF c
  have hS : ∀ s ∈ (slots hash orf ps).filter (fun s => decide (s.g.cls = some c)), ∃ p, SlotOk ps T Φ s p := fun s hs =>
    slots_ok hash orf ps T Φ hF s (List.mem_filter.1 hs).1
  unfold klassTerm
  simp only [h1]
  generalize (slots hash orf ps).filter (fun s => decide (s.g.cls = some c)) = S at *
  rw [bigQuad_sum, List.zipIdx_map, PtaPhi.pairs_map, List.map_map]
  have e : pairs S = (pairs S.zipIdx).map (Prod.map Prod.fst Prod.fst) := by
    rw [← PtaPhi.pairs_map]
    simp
  rw [e, List.map_map]
  congr 1
  apply List.map_congr_left
  rintro ⟨⟨s, x⟩, ⟨t, y⟩⟩ hz
  obtain ⟨hx, hy⟩ := PtaPhi.mem_of_mem_pairs hz
  have hx : S[x]? = some s := List.mem_zipIdx_iff_getElem?.1 hx
  have hy : S[y]? = some t := List.mem_zipIdx_iff_getElem?.1 hy
  have hc : cross orf ps c x y = phicross s.g.prior (orf c s.p.pos t.p.pos) := by
    unfold cross
    rw [h2, List.getElem?_map, List.getElem?_map, hx, hy]
    rfl
  obtain ⟨p, hs⟩ := hS s (List.mem_of_getElem? hx)
  obtain ⟨q, ht⟩ := hS t (List.mem_of_getElem? hy)
  simp only [Function.comp, Prod.map, pairTerm, id, hc, pairBil]
  rw [bigQuad_add]
  congr 1
  · exact spread_sum _ _ _ _ _ _ _ hs.range.2 ht.range.2 _ _
  · exact spread_sum _ _ _ _ _ _ _ ht.range.2 hs.range.2 _ _

/-- The classes of the array before those with one process are dropped. -/
noncomputable def dict (hash : Col ℝ → H) (orf : Nat → Pos → Pos → ℝ) (ps : List JPsr) : Dict Nat (List Item) :=
  PtaPhi.collect (ps.map (psigs hash orf)) 0 []

theorem dict_nodup (hash : Col ℝ → H) (orf : Nat → Pos → Pos → ℝ) (ps : List JPsr) : ((dict hash orf ps).map Prod.fst).Nodup :=
  PtaPhi.collect_nodup _ 0 [] (by simp)

theorem dict_get (hash : Col ℝ → H) (orf : Nat → Pos → Pos → ℝ) (ps : List JPsr) (c : Nat) :
    (Dict.get? (dict hash orf ps) c).getD [] = members (ps.map (psigs hash orf)) c := by
  have h := PtaPhi.collect_get (ps.map (psigs hash orf)) 0 [] c
  simp only [Dict.get?_nil, Option.getD_none, List.nil_append] at h
  exact h

theorem dict_val (hash : Col ℝ → H) (orf : Nat → Pos → Pos → ℝ) (ps : List JPsr) (kv : Nat × List Item) (h : kv ∈ dict hash orf ps) :
    kv.2 = members (ps.map (psigs hash orf)) kv.1 := by
  have := Dict.get?_of_mem (dict_nodup hash orf ps) h
  rw [← dict_get hash orf ps, this]
  rfl

theorem dict_key (hash : Col ℝ → H) (orf : Nat → Pos → Pos → ℝ) (ps : List JPsr) (c : Nat)
    (h : members (ps.map (psigs hash orf)) c ≠ []) : c ∈ (dict hash orf ps).map Prod.fst := by
  by_contra hc
  apply h
  rw [← dict_get hash orf ps, (Dict.get?_eq_none_iff _ _).2 hc]
  rfl

theorem sum_filter {α : Type} (l : List α) (P : α → Bool) (f : α → ℝ) (h : ∀ x ∈ l, P x = false → f x = 0) :
    ((l.filter P).map f).sum = (l.map f).sum := by
  induction l with
  | nil => rfl
  | cons a t ih =>
    have ih := ih fun x hx => h x (by simp [hx])
    rw [List.map_cons, List.sum_cons, ← ih]
    cases hp : P a with
    | true => rw [List.filter_cons_of_pos hp, List.map_cons, List.sum_cons]
    | false => rw [List.filter_cons_of_neg (by simp [hp]), h a (by simp) hp, zero_add]

/-- The prior covariance of all the coefficients. -/
noncomputable def bigF (hash : Col ℝ → H) (orf : Nat → Pos → Pos → ℝ) (ps : List JPsr) (Φ : JPsr → Kern ℝ) (i j : Nat) : ℝ :=
  PtaPhi.blockDiag (ps.map fun p => some (Φ p)) i j +
    ((klasses hash orf ps).map (klassTerm (slices (ps.map fun p => some (Φ p)) 0) i j)).sum

theorem klassTerms (hash : Col ℝ → H) (orf : Nat → Pos → Pos → ℝ) (ps : List JPsr) (sl : List (Nat × Nat)) (i j : Nat) :
    ((klasses hash orf ps).map (klassTerm sl i j)).sum = (((dict hash orf ps).map Prod.fst).map fun c =>
      klassTerm sl i j ⟨members (ps.map (psigs hash orf)) c, cross orf ps c⟩).sum := by
  unfold klasses PtaPhi.commonSignals
  rw [List.map_map, List.map_map]
  refine Eq.trans (sum_filter (dict hash orf ps) (fun kv => decide (1 < kv.2.length))
    (klassTerm sl i j ∘ fun kv => ⟨kv.2, cross orf ps kv.1⟩) ?_) ?_
  · intro kv _ h
    have h : kv.2.length ≤ 1 := by simpa using h
    have : pairs kv.2.zipIdx = [] := by
      match hl : kv.2, h with
      | [], _ => rfl
      | [x], _ => rfl
      | _ :: _ :: _, h => simp at h
    simp [klassTerm, this]
  · congr 1
    apply List.map_congr_left
    intro kv hkv
    simp only [Function.comp]
    rw [← dict_val hash orf ps kv hkv]

/-- The form of the prior covariance: the processes one by one, and the pairs of each class. -/
theorem form_pairs (hash : Col ℝ → H) (orf : Nat → Pos → Pos → ℝ) (ps : List JPsr) (T : JPsr → Nat → Col ℝ) (Φ : JPsr → Kern ℝ)
    (hF : ∀ p ∈ ps, Facts hash (p.gps.map (bsig orf p.pos)) (T p) (Φ p)) (X : Nat → Nat → ℝ) (a b : Nat) :
    bigQuad (PtaPhi.total (ps.map fun p => some (Φ p))) X (bigF hash orf ps Φ) a b =
      ((slots hash orf ps).map fun s => bil X a b (gl (slices (ps.map fun p => some (Φ p)) 0) s) (amat (bsig orf s.p.pos s.g).phi)
        (gl (slices (ps.map fun p => some (Φ p)) 0) s)).sum +
      (((dict hash orf ps).map Prod.fst).map fun c => ((pairs ((slots hash orf ps).filter fun s => decide (s.g.cls = some c))).map
        (pairBil orf (slices (ps.map fun p => some (Φ p)) 0) c X a b)).sum).sum := by
  unfold bigF
  simp only [klassTerms]
  rw [bigQuad_add, bigQuad_sum, own_sum hash orf ps T Φ hF]
  congr 2
  apply List.map_congr_left
  intro c _
  exact klass_sum hash orf ps T Φ hF c X a b

theorem slot_key (hash : Col ℝ → H) (orf : Nat → Pos → Pos → ℝ) (ps : List JPsr) (T : JPsr → Nat → Col ℝ) (Φ : JPsr → Kern ℝ)
    (hF : ∀ p ∈ ps, Facts hash (p.gps.map (bsig orf p.pos)) (T p) (Φ p)) (s : Slot) (hs : s ∈ slots hash orf ps) (c : Nat)
    (hc : s.g.cls = some c) : c ∈ (dict hash orf ps).map Prod.fst := by
  apply dict_key
  rw [(members_slots hash orf ps T Φ hF c).1]
  intro h
  have : s ∈ (slots hash orf ps).filter fun s => decide (s.g.cls = some c) := List.mem_filter.2 ⟨hs, by simp [hc]⟩
  rw [List.map_eq_nil_iff] at h
  rw [h] at this
  cases this

/-! ## Specification -/

/-- The covariance of the coefficients of two processes: processes of a class have the prior times the overlap of the positions,
other processes are independent of each other. -/
noncomputable def kov (orf : Nat → Pos → Pos → ℝ) (g : GSig) (pos : Pos) (u : Nat) (g' : GSig) (pos' : Pos) (v : Nat) (p q : Nat) : ℝ :=
  match g.cls, g'.cls with
  | some c, some d => if c = d then amat g.prior p q * orf c pos pos' else 0
  | _, _ => if u = v then amat g.prior p q else 0

/-- What is asked of the processes of an array: those of a pulsar as in C46, each pulsar with one at least, positive definite
priors, the same for all processes of a class, and overlaps that are a positive definite matrix. -/
structure Apt (hash : Col ℝ → H) (orf : Nat → Pos → Pos → ℝ) (ps : List JPsr) : Prop where
  ok : ∀ p ∈ ps, ∀ g ∈ p.gps, SigOk (bsig orf p.pos g)
  ordered : ∀ p ∈ ps, Ordered (p.gps.map (bsig orf p.pos))
  hash : ∀ p ∈ ps, HashOk hash (p.gps.map (bsig orf p.pos))
  some : ∀ p ∈ ps, ∃ g ∈ p.gps, g.basis ≠ none
  pos : ∀ p ∈ ps, ∀ g ∈ p.gps, g.basis ≠ none → (toMatrix g.basisAt.length (amat g.prior)).PosDef
  same : ∀ c, ∀ u ∈ ofClass ps c, ∀ v ∈ ofClass ps c, u.1 = v.1
  orf : ∀ c, (orfMatrix (orf c) fun u : Fin (ofClass ps c).length => ((ofClass ps c)[u]).2).PosDef

/-- The row of the stacked residuals at which pulsar `a` begins. -/
def rowStart (ps : List JPsr) (a : Nat) : Nat := ((ps.take a).map JPsr.n).sum

/-- The processes of the array, each with the first row of its pulsar and its pulsar. -/
def procs (ps : List JPsr) : List (Nat × JPsr × GSig) :=
  ps.zipIdx.flatMap fun x => (x.1.gps.filter fun g => g.basis.isSome).map fun g => (rowStart ps x.2, x.1, g)

/-- Column `q` of the basis of a process, on the stacked residuals: zero on the rows of other pulsars. -/
def col (x : Nat × JPsr × GSig) (q r : Nat) : ℝ :=
  if x.1 ≤ r ∧ r < x.1 + x.2.1.n then (x.2.2.basisAt.getD q fun _ => 0) (r - x.1) else 0

/-- The covariance of all the Gaussian processes of the array, on the stacked residuals. -/
noncomputable def gpCov (orf : Nat → Pos → Pos → ℝ) (ps : List JPsr) (r s : Nat) : ℝ :=
  ((procs ps).zipIdx.map fun x => ((procs ps).zipIdx.map fun y =>
    ∑ p ∈ Finset.range x.1.2.2.basisAt.length, ∑ q ∈ Finset.range y.1.2.2.basisAt.length,
      col x.1 p r * kov orf x.1.2.2 x.1.2.1.pos x.2 y.1.2.2 y.1.2.1.pos y.2 p q * col y.1 q s).sum).sum

/-- The noise of the pulsars: the covariances `N` and the columns `M` marginalized over. -/
def NoiseIs (ps : List JPsr) (m : JPsr → Nat) (N : ∀ p : JPsr, Matrix (Fin p.n) (Fin p.n) ℝ)
    (M : ∀ p : JPsr, Matrix (Fin p.n) (Fin (m p)) ℝ) : Prop :=
  ∀ p ∈ ps, ∃ o, getNdiag p.noise.reduceOption = .ok o ∧ Whole o (N p) (M p) fun _ => True

/-- The logarithm of the density of the stacked residuals without the delays, with the covariance of the noise and of all the
processes, the columns `M` marginalized over. -/
noncomputable def density (orf : Nat → Pos → Pos → ℝ) (ps : List JPsr) (m : JPsr → Nat) (N : ∀ p : JPsr, Matrix (Fin p.n) (Fin p.n) ℝ)
    (M : ∀ p : JPsr, Matrix (Fin p.n) (Fin (m p)) ℝ) : ℝ :=
  margLog (jm JPsr.n JPsr.n N ps + toMatrix (ps.map JPsr.n).sum (gpCov orf ps)) (jm JPsr.n m M ps)
    (jv JPsr.n (fun p => p.res - p.delays.reduceOption.sum) ps)

/-! ## The joint prior -/

theorem amat_phicross (A : Arr ℝ) (x : ℝ) (p q : Nat) : amat (phicross A x) p q = amat A p q * x := by
  cases A with
  | one n v => simp only [phicross, amat]; split <;> simp
  | two n m M => rfl

theorem mem_ofClass {ps : List JPsr} {p : JPsr} (hp : p ∈ ps) {g : GSig} (hg : g ∈ p.gps) (hb : g.basis ≠ none) {c : Nat}
    (hc : g.cls = some c) : (g.prior, p.pos) ∈ ofClass ps c := by
  refine List.mem_flatMap.2 ⟨p, hp, List.mem_map.2 ⟨g, List.mem_filter.2 ⟨hg, ?_⟩, rfl⟩⟩
  simp [hc, Option.isSome_iff_ne_none, hb]

theorem Apt.self {hash : Col ℝ → H} {orf : Nat → Pos → Pos → ℝ} {ps : List JPsr} (h : Apt hash orf ps) {c : Nat} {u : Arr ℝ × Pos}
    (hu : u ∈ ofClass ps c) : 0 < orf c u.2 u.2 := by
  obtain ⟨i, hi, e⟩ := List.getElem_of_mem hu
  have := (h.orf c).diag_pos (i := ⟨i, hi⟩)
  simpa [orfMatrix, e] using this

theorem Apt.symm {hash : Col ℝ → H} {orf : Nat → Pos → Pos → ℝ} {ps : List JPsr} (h : Apt hash orf ps) {c : Nat} {u v : Arr ℝ × Pos}
    (hu : u ∈ ofClass ps c) (hv : v ∈ ofClass ps c) : orf c u.2 v.2 = orf c v.2 u.2 := by
  obtain ⟨i, hi, e⟩ := List.getElem_of_mem hu
  obtain ⟨j, hj, e'⟩ := List.getElem_of_mem hv
  have := congrFun (congrFun (h.orf c).isHermitian ⟨j, hj⟩) ⟨i, hi⟩
  simpa [orfMatrix, e, e'] using this

theorem Apt.facts {hash : Col ℝ → H} {orf : Nat → Pos → Pos → ℝ} {ps : List JPsr} (h : Apt hash orf ps) :
    ∃ (T : JPsr → Nat → Col ℝ) (Φ : JPsr → Kern ℝ), ∀ p ∈ ps, Facts hash (p.gps.map (bsig orf p.pos)) (T p) (Φ p) := by
  have key : ∀ p ∈ ps, ∃ (T : Nat → Col ℝ) (Φ : Kern ℝ), Facts hash (p.gps.map (bsig orf p.pos)) T Φ := by
    intro p hp
    refine Joined.facts hash _ ?_ (h.ordered p hp) (h.hash p hp) ?_ ?_
    · intro s hs
      obtain ⟨g, hg, rfl⟩ := List.mem_map.1 hs
      exact h.ok p hp g hg
    · obtain ⟨g, hg, hb⟩ := h.some p hp
      exact ⟨_, List.mem_map.2 ⟨g, hg, rfl⟩, hb⟩
    · intro s hs
      obtain ⟨g, hg, rfl⟩ := List.mem_map.1 hs
      intro hb
      have hb : g.basis ≠ none := hb
      have hpd := h.pos p hp g hg hb
      show (toMatrix g.basisAt.length (amat (g.cls.elim g.prior fun c => phicross g.prior (orf c p.pos p.pos)))).PosDef
      cases hc : g.cls with
      | none => exact hpd
      | some c =>
        have := hpd.smul (h.self (mem_ofClass hp hg hb hc))
        convert this using 1
        ext i j
        simp only [toMatrix, Option.elim_some, Matrix.of_apply, amat_phicross, Matrix.smul_apply, smul_eq_mul]
        ring
  haveI : Nonempty (Kern ℝ) := ⟨.one 0 fun _ => 0⟩
  choose! T Φ hTΦ using key
  exact ⟨T, Φ, hTΦ⟩

theorem slots_class {hash : Col ℝ → H} {orf : Nat → Pos → Pos → ℝ} {ps : List JPsr} {T : JPsr → Nat → Col ℝ} {Φ : JPsr → Kern ℝ}
    (hF : ∀ p ∈ ps, Facts hash (p.gps.map (bsig orf p.pos)) (T p) (Φ p)) {s : Slot} (hs : s ∈ slots hash orf ps) {c : Nat}
    (hc : s.g.cls = some c) : (s.g.prior, s.p.pos) ∈ ofClass ps c := by
  obtain ⟨p, h⟩ := slots_ok hash orf ps T Φ hF s hs
  rw [h.eq]
  exact mem_ofClass (List.mem_of_getElem? h.psr) h.mem h.basis hc

/-- The form of the prior covariance, process against process. -/
theorem form_all (hash : Col ℝ → H) (orf : Nat → Pos → Pos → ℝ) (ps : List JPsr) (h : Apt hash orf ps) (T : JPsr → Nat → Col ℝ)
    (Φ : JPsr → Kern ℝ) (hF : ∀ p ∈ ps, Facts hash (p.gps.map (bsig orf p.pos)) (T p) (Φ p)) (X : Nat → Nat → ℝ) (a b : Nat) :
    bigQuad (PtaPhi.total (ps.map fun p => some (Φ p))) X (bigF hash orf ps Φ) a b =
      ((slots hash orf ps).zipIdx.map fun x => ((slots hash orf ps).zipIdx.map fun y =>
        bil X a b (gl (slices (ps.map fun p => some (Φ p)) 0) x.1) (kov orf x.1.g x.1.p.pos x.2 y.1.g y.1.p.pos y.2)
          (gl (slices (ps.map fun p => some (Φ p)) 0) y.1)).sum).sum := by
  rw [form_pairs hash orf ps T Φ hF]
  generalize slices (ps.map fun p => some (Φ p)) 0 = sl
  rw [PtaPhi.double_sum (slots hash orf ps).zipIdx fun x y =>
    bil X a b (gl sl x.1) (kov orf x.1.g x.1.p.pos x.2 y.1.g y.1.p.pos y.2) (gl sl y.1)]
  have hfst : slots hash orf ps = (slots hash orf ps).zipIdx.map Prod.fst := by simp
  congr 1
  · conv_lhs => rw [hfst]
    rw [List.map_map]
    congr 1
    apply List.map_congr_left
    rintro ⟨s, i⟩ _
    simp only [Function.comp]
    congr 1
    funext p q
    unfold kov bsig
    cases hc : s.g.cls with
    | none => simp
    | some c => simp [amat_phicross]
  · have e : ∀ c, ((pairs ((slots hash orf ps).filter fun s => decide (s.g.cls = some c))).map (pairBil orf sl c X a b)) =
        ((pairs ((slots hash orf ps).filter fun s => decide (s.g.cls = some c))).map
          fun z => z.1.g.cls.elim 0 fun c => pairBil orf sl c X a b z) := by
      intro c
      apply List.map_congr_left
      rintro ⟨s, t⟩ hz
      have := (List.mem_filter.1 (PtaPhi.mem_of_mem_pairs hz).1).2
      simp only [decide_eq_true_eq] at this
      simp only [this, Option.elim_some]
    simp only [e]
    rw [PtaPhi.classes_pairs _ (dict_nodup hash orf ps) (fun s : Slot => s.g.cls) _ fun s hs c hc => slot_key hash orf ps T Φ hF s hs c hc]
    have hp : pairs (slots hash orf ps) = (pairs (slots hash orf ps).zipIdx).map (Prod.map Prod.fst Prod.fst) := by
      rw [← PtaPhi.pairs_map, ← hfst]
    rw [hp, List.map_map]
    congr 1
    apply List.map_congr_left
    rintro ⟨⟨s, i⟩, ⟨t, j⟩⟩ hz
    obtain ⟨i', j', hij, h1, h2⟩ := (PtaPhi.mem_pairs _ _ _).1 hz
    rw [List.getElem?_zipIdx] at h1 h2
    obtain ⟨s', hs, e1⟩ := Option.map_eq_some_iff.1 h1
    obtain ⟨t', ht, e2⟩ := Option.map_eq_some_iff.1 h2
    simp only [Prod.mk.injEq, Nat.zero_add] at e1 e2
    obtain ⟨rfl, rfl⟩ := e1
    obtain ⟨rfl, rfl⟩ := e2
    have hne : i' ≠ j' := by omega
    have hs := List.mem_of_getElem? hs
    have ht := List.mem_of_getElem? ht
    simp only [Function.comp, Prod.map]
    have hz0 : ∀ (l l' : List Nat), bil X a b l (fun _ _ => 0) l' = 0 := by
      intro l l'
      simp [bil]
    cases hc : s'.g.cls with
    | none =>
      have k1 : kov orf s'.g s'.p.pos i' t'.g t'.p.pos j' = fun _ _ => 0 := by
        funext p q
        simp [kov, hc, hne]
      have k2 : kov orf t'.g t'.p.pos j' s'.g s'.p.pos i' = fun _ _ => 0 := by
        funext p q
        unfold kov
        rw [hc]
        cases t'.g.cls <;> simp [hne.symm]
      rw [k1, k2, hz0, hz0]
      simp
    | some c =>
      cases hd : t'.g.cls with
      | none =>
        have k1 : kov orf s'.g s'.p.pos i' t'.g t'.p.pos j' = fun _ _ => 0 := by
          funext p q
          simp [kov, hc, hd, hne]
        have k2 : kov orf t'.g t'.p.pos j' s'.g s'.p.pos i' = fun _ _ => 0 := by
          funext p q
          simp [kov, hc, hd, hne.symm]
        rw [k1, k2, hz0, hz0]
        simp
      | some d =>
        by_cases hcd : c = d
        · subst hcd
          have m1 := slots_class hF hs hc
          have m2 := slots_class hF ht hd
          have k1 : kov orf s'.g s'.p.pos i' t'.g t'.p.pos j' = amat (phicross s'.g.prior (orf c s'.p.pos t'.p.pos)) := by
            funext p q
            simp [kov, hc, hd, amat_phicross]
          have k2 : kov orf t'.g t'.p.pos j' s'.g s'.p.pos i' = amat (phicross s'.g.prior (orf c s'.p.pos t'.p.pos)) := by
            funext p q
            have g1 := h.same c _ m1 _ m2
            have g2 := h.symm m1 m2
            simp only at g1 g2
            simp [kov, hc, hd, amat_phicross, g1, g2]
          rw [k1, k2]
          simp [pairBil]
        · have k1 : kov orf s'.g s'.p.pos i' t'.g t'.p.pos j' = fun _ _ => 0 := by
            funext p q
            simp [kov, hc, hd, hcd]
          have k2 : kov orf t'.g t'.p.pos j' s'.g s'.p.pos i' = fun _ _ => 0 := by
            funext p q
            have : ¬ d = c := fun e => hcd e.symm
            simp [kov, hc, hd, this]
          rw [k1, k2, hz0, hz0]
          simp [hcd]

theorem kron_form {n k : Nat} {Γ : Matrix (Fin n) (Fin n) ℝ} {P : Matrix (Fin k) (Fin k) ℝ} (hΓ : Γ.PosDef) (hP : P.PosDef)
    (w : Fin n → Fin k → ℝ) : 0 ≤ ∑ u, ∑ v, ∑ p, ∑ q, w u p * (P p q * Γ u v) * w v q ∧
      (∑ u, ∑ v, ∑ p, ∑ q, w u p * (P p q * Γ u v) * w v q = 0 → ∀ u p, w u p = 0) := by
  have hK := hΓ.kronecker hP
  have e : (fun z : Fin n × Fin k => w z.1 z.2) ⬝ᵥ (Matrix.kroneckerMap (· * ·) Γ P *ᵥ fun z => w z.1 z.2) =
      ∑ u, ∑ v, ∑ p, ∑ q, w u p * (P p q * Γ u v) * w v q := by
    simp only [dotProduct, mulVec, Fintype.sum_prod_type, Matrix.kroneckerMap_apply, Finset.mul_sum]
    apply Finset.sum_congr rfl
    intro u _
    rw [Finset.sum_comm]
    apply Finset.sum_congr rfl
    intro v _
    apply Finset.sum_congr rfl
    intro p _
    apply Finset.sum_congr rfl
    intro q _
    ring
  rw [← e]
  constructor
  · have := hK.posSemidef.dotProduct_mulVec_nonneg fun z : Fin n × Fin k => w z.1 z.2
    simpa using this
  · intro h0 u p
    by_contra hne
    have hx : (fun z : Fin n × Fin k => w z.1 z.2) ≠ 0 := fun h => hne (congrFun h (u, p))
    have := hK.dotProduct_mulVec_pos hx
    simp only [star_trivial] at this
    exact absurd h0 this.ne'

theorem sum_fin {α : Type} (l : List α) (f : α → ℝ) : (l.map f).sum = ∑ u : Fin l.length, f l[u] := by
  rw [← Fin.sum_univ_fun_getElem]
  rfl

theorem class_form (orf : Nat → Pos → Pos → ℝ) (sl : List (Nat × Nat)) (c k : Nat) (P : Nat → Nat → ℝ)
    (hP : (toMatrix k P).PosDef) (S : List Slot) (hk : ∀ s ∈ S, s.idx.length = k)
    (hΓ : (orfMatrix (orf c) fun u : Fin S.length => S[u].p.pos).PosDef) (x : Nat → ℝ) :
    0 ≤ (S.map fun s => (S.map fun t => bil (fun i _ => x i) 0 0 (gl sl s) (fun p q => P p q * orf c s.p.pos t.p.pos) (gl sl t)).sum).sum ∧
    ((S.map fun s => (S.map fun t => bil (fun i _ => x i) 0 0 (gl sl s) (fun p q => P p q * orf c s.p.pos t.p.pos) (gl sl t)).sum).sum = 0 →
      ∀ s ∈ S, ∀ i ∈ gl sl s, x i = 0) := by
  have hlen : ∀ u : Fin S.length, (gl sl S[u]).length = k := by
    intro u
    rw [gl, List.length_map]
    exact hk _ (List.getElem_mem _)
  have key := kron_form hΓ hP fun (u : Fin S.length) (p : Fin k) => x ((gl sl S[u]).getD p 0)
  have e : (S.map fun s => (S.map fun t => bil (fun i _ => x i) 0 0 (gl sl s) (fun p q => P p q * orf c s.p.pos t.p.pos) (gl sl t)).sum).sum =
      ∑ u : Fin S.length, ∑ v : Fin S.length, ∑ p : Fin k, ∑ q : Fin k, x ((gl sl S[u]).getD p 0) *
        (toMatrix k P p q * orfMatrix (orf c) (fun u : Fin S.length => S[u].p.pos) u v) * x ((gl sl S[v]).getD q 0) := by
    simp only [sum_fin]
    apply Finset.sum_congr rfl
    intro u _
    apply Finset.sum_congr rfl
    intro v _
    unfold bil
    rw [hlen, hlen, Finset.sum_range]
    apply Finset.sum_congr rfl
    intro p _
    rw [Finset.sum_range]
    rfl
  rw [e]
  refine ⟨key.1, fun h0 s hs i hi => ?_⟩
  obtain ⟨u, hu, rfl⟩ := List.getElem_of_mem hs
  obtain ⟨p, hp, rfl⟩ := List.getElem_of_mem hi
  have hp' : p < k := by
    have := hlen ⟨u, hu⟩
    simp only [Fin.getElem_fin] at this
    omega
  have := key.2 h0 ⟨u, hu⟩ ⟨p, hp'⟩
  simpa [List.getD_eq_getElem?_getD, List.getElem?_eq_getElem hp] using this

theorem sizeOk_phicross {n : Nat} {A : Arr ℝ} {x : ℝ} (h : SizeOk n (phicross A x)) : SizeOk n A := by
  cases A <;> exact h

theorem sizeOk_unique {n m : Nat} {A : Arr ℝ} (h : SizeOk n A) (h' : SizeOk m A) : n = m := by
  cases A with
  | one k v => exact Eq.trans (Eq.symm h) h'
  | two k l M => exact h.1.symm.trans h'.1

theorem slot_size {orf : Nat → Pos → Pos → ℝ} {ps : List JPsr} (h : ∀ p ∈ ps, ∀ g ∈ p.gps, SigOk (bsig orf p.pos g)) {T : JPsr → Nat → Col ℝ}
    {Φ : JPsr → Kern ℝ} {s : Slot} {p : JPsr} (hs : SlotOk ps T Φ s p) : SizeOk s.idx.length s.g.prior := by
  have hp := List.mem_of_getElem? hs.psr
  obtain ⟨F, hb⟩ := Option.ne_none_iff_exists'.1 hs.basis
  obtain ⟨-, h2, -, h4, -⟩ := h p hp s.g hs.mem F hb
  rw [hs.len]
  have h2 : s.g.basisAt.length = F.length := h2
  rw [h2]
  simp only [bsig] at h4
  cases hc : s.g.cls with
  | none => rw [hc] at h4; exact h4
  | some c => rw [hc] at h4; exact sizeOk_phicross h4

theorem klass_ok (hash : Col ℝ → H) (orf : Nat → Pos → Pos → ℝ) (ps : List JPsr) (h : ∀ p ∈ ps, ∀ g ∈ p.gps, SigOk (bsig orf p.pos g))
    (hsz : ∀ c, ∀ u ∈ ofClass ps c, ∀ v ∈ ofClass ps c, ∃ n, SizeOk n u.1 ∧ SizeOk n v.1) (T : JPsr → Nat → Col ℝ)
    (Φ : JPsr → Kern ℝ) (hF : ∀ p ∈ ps, Facts hash (p.gps.map (bsig orf p.pos)) (T p) (Φ p)) (c : Nat) :
    KlassOk (slices (ps.map fun p => some (Φ p)) 0) ⟨members (ps.map (psigs hash orf)) c, cross orf ps c⟩ := by
  obtain ⟨h1, h2⟩ := members_slots hash orf ps T Φ hF c
  have hS : ∀ s ∈ (slots hash orf ps).filter (fun s => decide (s.g.cls = some c)), (∃ p, SlotOk ps T Φ s p) ∧
      (s.g.prior, s.p.pos) ∈ ofClass ps c := fun s hs =>
    ⟨slots_ok hash orf ps T Φ hF s (List.mem_filter.1 hs).1,
      slots_class hF (List.mem_filter.1 hs).1 (by simpa using (List.mem_filter.1 hs).2)⟩
  constructor
  · simp only [h1]
    intro it hit
    obtain ⟨s, hs, rfl⟩ := List.mem_map.1 hit
    obtain ⟨⟨p, hs⟩, -⟩ := hS s hs
    exact ⟨hs.nodup, hs.range.1⟩
  · simp only [h1]
    generalize (slots hash orf ps).filter (fun s => decide (s.g.cls = some c)) = S at *
    rw [List.zipIdx_map, PtaPhi.pairs_map]
    intro xy hxy
    obtain ⟨⟨⟨s, x⟩, ⟨t, y⟩⟩, hz, rfl⟩ := List.mem_map.1 hxy
    obtain ⟨hx, hy⟩ := PtaPhi.mem_of_mem_pairs hz
    have hx : S[x]? = some s := List.mem_zipIdx_iff_getElem?.1 hx
    have hy : S[y]? = some t := List.mem_zipIdx_iff_getElem?.1 hy
    have hc : cross orf ps c x y = phicross s.g.prior (orf c s.p.pos t.p.pos) := by
      unfold cross
      rw [h2, List.getElem?_map, List.getElem?_map, hx, hy]
      rfl
    obtain ⟨⟨p, hs⟩, ms⟩ := hS s (List.mem_of_getElem? hx)
    obtain ⟨⟨q, ht⟩, mt⟩ := hS t (List.mem_of_getElem? hy)
    have e1 := slot_size h hs
    have e2 := slot_size h ht
    obtain ⟨n, e3, e3'⟩ := hsz c _ ms _ mt
    have e4 := (sizeOk_unique e1 e3).trans (sizeOk_unique e3' e2)
    simp only [Prod.map, id, hc]
    cases hA : s.g.prior with
    | one k v => rw [hA] at e1; exact ⟨e1, e4⟩
    | two k l M => rw [hA] at e1; exact ⟨e1.1, e1.2.trans e4, e4⟩

theorem Apt.size {hash : Col ℝ → H} {orf : Nat → Pos → Pos → ℝ} {ps : List JPsr} (h : Apt hash orf ps) (c : Nat) :
    ∀ u ∈ ofClass ps c, ∀ v ∈ ofClass ps c, ∃ n, SizeOk n u.1 ∧ SizeOk n v.1 := by
  intro u hu v hv
  rw [← h.same c u hu v hv]
  have : ∃ n, SizeOk n u.1 := by
    obtain ⟨p, hp, hx⟩ := List.mem_flatMap.1 hu
    obtain ⟨g, hgf, rfl⟩ := List.mem_map.1 hx
    obtain ⟨hg, hgc⟩ := List.mem_filter.1 hgf
    obtain ⟨hb, hgc⟩ : g.basis.isSome = true ∧ g.cls = Option.some c := by simpa using hgc
    obtain ⟨F, hF⟩ := Option.isSome_iff_exists.1 hb
    obtain ⟨-, -, -, h4, -⟩ := h.ok p hp g hg F hF
    simp only [bsig, hgc, Option.elim_some] at h4
    exact ⟨_, sizeOk_phicross h4⟩
  obtain ⟨n, hn⟩ := this
  exact ⟨n, hn, hn⟩

theorem kov_symm {hash : Col ℝ → H} {orf : Nat → Pos → Pos → ℝ} {ps : List JPsr} (h : Apt hash orf ps) {T : JPsr → Nat → Col ℝ}
    {Φ : JPsr → Kern ℝ} (hF : ∀ p ∈ ps, Facts hash (p.gps.map (bsig orf p.pos)) (T p) (Φ p)) {x y : Slot × Nat}
    (hx : x ∈ (slots hash orf ps).zipIdx) (hy : y ∈ (slots hash orf ps).zipIdx) {p q : Nat} (hp : p < x.1.idx.length) (hq : q < y.1.idx.length) :
    kov orf x.1.g x.1.p.pos x.2 y.1.g y.1.p.pos y.2 p q = kov orf y.1.g y.1.p.pos y.2 x.1.g x.1.p.pos x.2 q p := by
  obtain ⟨s, u⟩ := x
  obtain ⟨t, v⟩ := y
  have hs : (slots hash orf ps)[u]? = some s := List.mem_zipIdx_iff_getElem?.1 hx
  have ht : (slots hash orf ps)[v]? = some t := List.mem_zipIdx_iff_getElem?.1 hy
  obtain ⟨a, oks⟩ := slots_ok hash orf ps T Φ hF s (List.mem_of_getElem? hs)
  obtain ⟨b, okt⟩ := slots_ok hash orf ps T Φ hF t (List.mem_of_getElem? ht)
  have hsym : ∀ p q, p < s.idx.length → q < s.idx.length → amat s.g.prior p q = amat s.g.prior q p := by
    intro p q hp hq
    rw [oks.len] at hp hq
    have := congrFun (congrFun (h.pos a (List.mem_of_getElem? oks.psr) s.g oks.mem oks.basis).isHermitian ⟨q, hq⟩) ⟨p, hp⟩
    simpa [toMatrix] using this
  have hself : ∀ c d : Option Nat, (c = none ∨ d = none) → (if u = v then amat s.g.prior p q else 0) = if v = u then amat t.g.prior q p else 0 := by
    intro _ _ _
    by_cases huv : u = v
    · subst huv
      obtain rfl : s = t := by rw [hs] at ht; exact Option.some.inj ht
      rw [if_pos rfl, if_pos rfl]
      exact hsym p q hp hq
    · rw [if_neg huv, if_neg fun e => huv e.symm]
  simp only [kov]
  cases hc : s.g.cls with
  | none =>
    cases hd : t.g.cls with
    | none => exact hself none none (.inl rfl)
    | some d => exact hself none none (.inl rfl)
  | some c =>
    cases hd : t.g.cls with
    | none => exact hself none none (.inl rfl)
    | some d =>
      by_cases hcd : c = d
      · subst hcd
        have m1 := slots_class hF (List.mem_of_getElem? hs) hc
        have m2 := slots_class hF (List.mem_of_getElem? ht) hd
        have g1 : s.g.prior = t.g.prior := h.same c _ m1 _ m2
        have g2 : orf c s.p.pos t.p.pos = orf c t.p.pos s.p.pos := h.symm m1 m2
        have e2 := slot_size h.ok okt
        rw [← g1] at e2
        have e4 := sizeOk_unique (slot_size h.ok oks) e2
        simp only [if_true]
        rw [← g1, ← g2, hsym p q hp (by simp only at hq; omega)]
      · simp only
        rw [if_neg hcd, if_neg fun e => hcd e.symm]

theorem bigQuad_unit (n : Nat) (F : Nat → Nat → ℝ) (X : Nat → Nat → ℝ) (a b i j : Nat) (hi : i < n) (hj : j < n)
    (ha : ∀ k, X k a = if k = i then 1 else 0) (hb : ∀ k, X k b = if k = j then 1 else 0) : bigQuad n X F a b = F i j := by
  unfold bigQuad
  simp only [ha, hb]
  rw [Finset.sum_eq_single i, Finset.sum_eq_single j]
  · simp
  · intro k _ hk; simp [hk]
  · intro h; exact absurd (Finset.mem_range.2 hj) h
  · intro k _ hk; simp [hk]
  · intro h; exact absurd (Finset.mem_range.2 hi) h

theorem bigF_symm (hash : Col ℝ → H) (orf : Nat → Pos → Pos → ℝ) (ps : List JPsr) (h : Apt hash orf ps) (T : JPsr → Nat → Col ℝ)
    (Φ : JPsr → Kern ℝ) (hF : ∀ p ∈ ps, Facts hash (p.gps.map (bsig orf p.pos)) (T p) (Φ p)) (i j : Nat)
    (hi : i < PtaPhi.total (ps.map fun p => some (Φ p))) (hj : j < PtaPhi.total (ps.map fun p => some (Φ p))) :
    bigF hash orf ps Φ i j = bigF hash orf ps Φ j i := by
  let X : Nat → Nat → ℝ := fun k a => if a = 0 then (if k = i then 1 else 0) else (if k = j then 1 else 0)
  rw [← bigQuad_unit _ (bigF hash orf ps Φ) X 0 1 i j hi hj (fun k => by simp [X]) fun k => by simp [X],
    ← bigQuad_unit _ (bigF hash orf ps Φ) X 1 0 j i hj hi (fun k => by simp [X]) fun k => by simp [X],
    form_all hash orf ps h T Φ hF, form_all hash orf ps h T Φ hF]
  have swap : ∀ (l : List (Slot × Nat)) (f : Slot × Nat → Slot × Nat → ℝ),
      (l.map fun x => (l.map fun y => f x y).sum).sum = (l.map fun x => (l.map fun y => f y x).sum).sum := by
    intro l f
    simp only [sum_fin]
    exact Finset.sum_comm
  rw [swap]
  congr 1
  apply List.map_congr_left
  intro x hx
  congr 1
  apply List.map_congr_left
  intro y hy
  unfold bil
  rw [Finset.sum_comm]
  apply Finset.sum_congr rfl
  intro p hp
  apply Finset.sum_congr rfl
  intro q hq
  rw [Finset.mem_range, gl, List.length_map] at hp hq
  rw [kov_symm h hF hy hx hq hp]
  ring

theorem sum_nonneg_zero {α : Type} (l : List α) (f : α → ℝ) (h : ∀ x ∈ l, 0 ≤ f x) :
    0 ≤ (l.map f).sum ∧ ((l.map f).sum = 0 → ∀ x ∈ l, f x = 0) := by
  induction l with
  | nil => simp
  | cons a t ih =>
    obtain ⟨i1, i2⟩ := ih fun x hx => h x (by simp [hx])
    have ha := h a (by simp)
    rw [List.map_cons, List.sum_cons]
    refine ⟨add_nonneg ha i1, fun h0 x hx => ?_⟩
    rcases List.mem_cons.1 hx with rfl | hx
    · linarith
    · exact i2 (by linarith) x hx

/-- Every column of the array belongs to a process. -/
theorem cover (hash : Col ℝ → H) (orf : Nat → Pos → Pos → ℝ) (ps : List JPsr) (T : JPsr → Nat → Col ℝ) (Φ : JPsr → Kern ℝ)
    (hF : ∀ p ∈ ps, Facts hash (p.gps.map (bsig orf p.pos)) (T p) (Φ p)) (a : Nat) (p : JPsr) (ha : ps[a]? = some p) (j : Nat)
    (hj : j < (Φ p).size) : ∃ s ∈ slots hash orf ps, s.a = a ∧ j ∈ s.idx := by
  have f := hF p (List.mem_of_getElem? ha)
  rw [f.size, mem_iff_lt_ncol] at hj
  obtain ⟨o, ho, hjo⟩ := List.mem_flatMap.1 hj
  cases o with
  | none => simp at hjo
  | some l =>
    obtain ⟨L, hL, -⟩ := f.points
    have hlen : p.gps.length = (idxOf hash (p.gps.map (bsig orf p.pos))).length := by
      have : ∀ (sigs : List (BSig ℝ)) (ix : List (Option (List Nat))), AllPoints L sigs ix → sigs.length = ix.length := by
        intro sigs ix hx
        induction hx with
        | nil => rfl
        | none _ _ ih => simp [ih]
        | some _ _ _ _ ih => simp [ih]
      simpa using this _ _ hL
    obtain ⟨k, hk, e⟩ := List.getElem_of_mem ho
    have hk' : k < p.gps.length := by omega
    refine ⟨⟨a, p, p.gps[k], l⟩, List.mem_flatMap.2 ⟨(p, a), List.mem_zipIdx_iff_getElem?.2 ha, ?_⟩, rfl, by simpa using hjo⟩
    refine List.mem_filterMap.2 ⟨(p.gps[k], some l), ?_, rfl⟩
    rw [← e]
    refine List.mem_iff_getElem.2 ⟨k, by simp only [List.length_zip]; omega, by simp⟩

theorem slices_cover (phis : List (Option (Kern ℝ))) : ∀ o i, i < PtaPhi.total phis → ∃ a κ j, phis[a]? = some (some κ) ∧ j < κ.size ∧
    o + i = off (slices phis o) a + j := by
  induction phis with
  | nil => intro o i h; simp [PtaPhi.total] at h
  | cons k t ih =>
    intro o i h
    cases k with
    | none =>
      obtain ⟨a, κ, j, h1, h2, h3⟩ := ih o i h
      exact ⟨a + 1, κ, j, by simpa using h1, h2, by simpa [slices, off] using h3⟩
    | some k =>
      by_cases hi : i < k.size
      · exact ⟨0, k, i, by simp, hi, by simp [slices, off]⟩
      · have h' : i - k.size < PtaPhi.total t := by
          have : PtaPhi.total (some k :: t) = k.size + PtaPhi.total t := rfl
          omega
        obtain ⟨a, κ, j, h1, h2, h3⟩ := ih (o + k.size) (i - k.size) h'
        refine ⟨a + 1, κ, j, by simpa using h1, h2, ?_⟩
        have e : off (slices (some k :: t) o) (a + 1) = off (slices t (o + k.size)) a := by simp [slices, off]
        rw [e]
        omega

/-- The prior covariance of all the coefficients is positive definite. -/
theorem bigF_pos (hash : Col ℝ → H) (orf : Nat → Pos → Pos → ℝ) (ps : List JPsr) (h : Apt hash orf ps) (T : JPsr → Nat → Col ℝ)
    (Φ : JPsr → Kern ℝ) (hF : ∀ p ∈ ps, Facts hash (p.gps.map (bsig orf p.pos)) (T p) (Φ p)) :
    (toMatrix (PtaPhi.total (ps.map fun p => some (Φ p))) (bigF hash orf ps Φ)).PosDef := by
  have key : ∀ x : Nat → ℝ, 0 ≤ form (PtaPhi.total (ps.map fun p => some (Φ p))) x (bigF hash orf ps Φ) ∧
      (form (PtaPhi.total (ps.map fun p => some (Φ p))) x (bigF hash orf ps Φ) = 0 →
        ∀ s ∈ slots hash orf ps, ∀ i ∈ gl (slices (ps.map fun p => some (Φ p)) 0) s, x i = 0) := by
    intro x
    unfold form
    rw [form_pairs hash orf ps T Φ hF, PtaPhi.classes_sum _ (dict_nodup hash orf ps) (fun s : Slot => s.g.cls) _
      (fun s hs c hc => slot_key hash orf ps T Φ hF s hs c hc), add_assoc, ← List.sum_map_add]
    generalize slices (ps.map fun p => some (Φ p)) 0 = sl
    have hown : ∀ s ∈ (slots hash orf ps).filter fun s => decide (s.g.cls = none),
        0 ≤ bil (fun i _ => x i) 0 0 (gl sl s) (amat (bsig orf s.p.pos s.g).phi) (gl sl s) ∧
        (bil (fun i _ => x i) 0 0 (gl sl s) (amat (bsig orf s.p.pos s.g).phi) (gl sl s) = 0 → ∀ i ∈ gl sl s, x i = 0) := by
      intro s hs
      obtain ⟨hs, hc⟩ := List.mem_filter.1 hs
      have hc : s.g.cls = none := by simpa using hc
      obtain ⟨p, ok⟩ := slots_ok hash orf ps T Φ hF s hs
      have hpd := h.pos p (List.mem_of_getElem? ok.psr) s.g ok.mem ok.basis
      have hlen : (gl sl s).length = s.g.basisAt.length := by rw [gl, List.length_map, ok.len]
      have hphi : (bsig orf s.p.pos s.g).phi = s.g.prior := by simp [bsig, hc]
      have e : bil (fun i _ => x i) 0 0 (gl sl s) (amat (bsig orf s.p.pos s.g).phi) (gl sl s) =
          form s.g.basisAt.length (fun p => x ((gl sl s).getD p 0)) (amat s.g.prior) := by
        rw [hphi]
        unfold bil form bigQuad
        rw [hlen]
      rw [e]
      obtain ⟨f1, f2⟩ := form_pos hpd fun p => x ((gl sl s).getD p 0)
      refine ⟨f1, fun h0 i hi => ?_⟩
      obtain ⟨k, hk, rfl⟩ := List.getElem_of_mem hi
      have := f2 h0 k (by omega)
      simpa [List.getD_eq_getElem?_getD, List.getElem?_eq_getElem hk] using this
    have hcls : ∀ c, 0 ≤ (((slots hash orf ps).filter fun s => decide (s.g.cls = some c)).map fun s =>
            bil (fun i _ => x i) 0 0 (gl sl s) (amat (bsig orf s.p.pos s.g).phi) (gl sl s)).sum +
          ((pairs ((slots hash orf ps).filter fun s => decide (s.g.cls = some c))).map (pairBil orf sl c (fun i _ => x i) 0 0)).sum ∧
        ((((slots hash orf ps).filter fun s => decide (s.g.cls = some c)).map fun s =>
            bil (fun i _ => x i) 0 0 (gl sl s) (amat (bsig orf s.p.pos s.g).phi) (gl sl s)).sum +
          ((pairs ((slots hash orf ps).filter fun s => decide (s.g.cls = some c))).map (pairBil orf sl c (fun i _ => x i) 0 0)).sum = 0 →
        ∀ s ∈ slots hash orf ps, s.g.cls = some c → ∀ i ∈ gl sl s, x i = 0) := by
      intro c
      have hm := (members_slots hash orf ps T Φ hF c).2
      have hS : ∀ s ∈ (slots hash orf ps).filter (fun s => decide (s.g.cls = some c)), s.g.cls = some c ∧ (∃ p, SlotOk ps T Φ s p) ∧
          (s.g.prior, s.p.pos) ∈ ofClass ps c := fun s hs =>
        ⟨by simpa using (List.mem_filter.1 hs).2, slots_ok hash orf ps T Φ hF s (List.mem_filter.1 hs).1,
          slots_class hF (List.mem_filter.1 hs).1 (by simpa using (List.mem_filter.1 hs).2)⟩
      have hback : ∀ s ∈ slots hash orf ps, s.g.cls = some c → s ∈ (slots hash orf ps).filter (fun s => decide (s.g.cls = some c)) :=
        fun s hs hc => List.mem_filter.2 ⟨hs, by simpa using hc⟩
      generalize hSd : (slots hash orf ps).filter (fun s => decide (s.g.cls = some c)) = S at *
      match S, hS, hm, hback with
      | [], hS, hm, hback => exact ⟨by simp [pairs], fun _ s hs hc => absurd (hback s hs hc) (by simp)⟩
      | s0 :: S', hS, hm, hback =>
        obtain ⟨-, ⟨p0, ok0⟩, m0⟩ := hS s0 (by simp)
        have hpd := h.pos p0 (List.mem_of_getElem? ok0.psr) s0.g ok0.mem ok0.basis
        rw [← ok0.len] at hpd
        generalize hS0 : s0 :: S' = S at *
        have hprior : ∀ s ∈ S, s.g.prior = s0.g.prior := fun s hs => h.same c _ (hS s hs).2.2 _ m0
        have hk : ∀ s ∈ S, s.idx.length = s0.idx.length := by
          intro s hs
          obtain ⟨-, ⟨p, ok⟩, -⟩ := hS s hs
          have e1 := slot_size h.ok ok
          rw [hprior s hs] at e1
          exact sizeOk_unique e1 (slot_size h.ok ok0)
        have hΓ : (orfMatrix (orf c) fun u : Fin S.length => S[u].p.pos).PosDef := by
          have hl : S.length = (ofClass ps c).length := by rw [hm, List.length_map]
          have := (h.orf c).submatrix (e := Fin.cast hl) (Fin.cast_injective hl)
          convert this using 1
          ext u v
          simp only [orfMatrix, Matrix.submatrix_apply, Matrix.of_apply]
          congr 1 <;> simp [hm]
        obtain ⟨f1, f2⟩ := class_form orf sl c s0.idx.length (amat s0.g.prior) hpd S hk hΓ x
        have e : (S.map fun s => (S.map fun t => bil (fun i _ => x i) 0 0 (gl sl s)
              (fun p q => amat s0.g.prior p q * orf c s.p.pos t.p.pos) (gl sl t)).sum).sum =
            (S.map fun s => bil (fun i _ => x i) 0 0 (gl sl s) (amat (bsig orf s.p.pos s.g).phi) (gl sl s)).sum +
              ((pairs S).map (pairBil orf sl c (fun i _ => x i) 0 0)).sum := by
          rw [PtaPhi.double_sum S fun s t => bil (fun i _ => x i) 0 0 (gl sl s)
              (fun p q => amat s0.g.prior p q * orf c s.p.pos t.p.pos) (gl sl t)]
          congr 2
          · apply List.map_congr_left
            intro s hs
            congr 1
            funext p q
            simp only [bsig, (hS s hs).1, Option.elim_some, amat_phicross, hprior s hs]
          · apply List.map_congr_left
            rintro ⟨s, t⟩ hz
            obtain ⟨hs, ht⟩ := PtaPhi.mem_of_mem_pairs hz
            have g2 : orf c s.p.pos t.p.pos = orf c t.p.pos s.p.pos := h.symm (hS s hs).2.2 (hS t ht).2.2
            unfold pairBil
            simp only
            congr 2
            · funext p q
              rw [amat_phicross, hprior s hs]
            · funext p q
              rw [amat_phicross, hprior s hs, g2]
        rw [e] at f1 f2
        exact ⟨f1, fun h0 s hs hc => f2 h0 s (hback s hs hc)⟩
    obtain ⟨a1, a2⟩ := sum_nonneg_zero _ _ fun s hs => (hown s hs).1
    obtain ⟨b1, b2⟩ := sum_nonneg_zero ((dict hash orf ps).map Prod.fst) _ fun c _ => (hcls c).1
    refine ⟨add_nonneg a1 b1, fun h0 s hs i hi => ?_⟩
    cases hc : s.g.cls with
    | none =>
      have hs' : s ∈ (slots hash orf ps).filter fun s => decide (s.g.cls = none) := List.mem_filter.2 ⟨hs, by simp [hc]⟩
      exact (hown s hs').2 (a2 (by linarith) s hs') i hi
    | some c => exact (hcls c).2 (b2 (by linarith) c (slot_key hash orf ps T Φ hF s hs c hc)) s hs hc i hi
  refine PosDef.of_dotProduct_mulVec_pos ?_ fun y hy => ?_
  · ext i j
    exact (bigF_symm hash orf ps h T Φ hF i j i.2 j.2).symm
  · rw [star_trivial]
    let x : Nat → ℝ := fun i => if hi : i < PtaPhi.total (ps.map fun p => some (Φ p)) then y ⟨i, hi⟩ else 0
    have hxy : (fun i : Fin (PtaPhi.total (ps.map fun p => some (Φ p))) => x i) = y := by
      funext i
      simp [x]
    obtain ⟨k1, k2⟩ := key x
    rw [form_eq, hxy] at k1 k2
    rcases lt_or_eq_of_le k1 with hlt | heq
    · exact hlt
    · exfalso
      apply hy
      funext i
      obtain ⟨a, κ, j, h1, h2, h3⟩ := slices_cover (ps.map fun p => some (Φ p)) 0 i i.2
      rw [List.getElem?_map] at h1
      obtain ⟨p, hp, e⟩ := Option.map_eq_some_iff.1 h1
      cases e
      obtain ⟨s, hs, rfl, hj⟩ := cover hash orf ps T Φ hF a p hp j h2
      have := k2 heq.symm s hs (i : Nat) (List.mem_map.2 ⟨j, hj, by omega⟩)
      rw [← hxy]
      exact this

/-! ## The stacked residuals -/

/-- Rectangular blocks along the diagonal, each with its numbers of rows and columns. -/
noncomputable def rect : List (Nat × Nat × (Nat → Nat → ℝ)) → Nat → Nat → ℝ
  | [], _, _ => 0
  | b :: t, i, j => if i < b.1 then (if j < b.2.1 then b.2.2 i j else 0) else if j < b.2.1 then 0 else rect t (i - b.1) (j - b.2.1)

/-- A matrix as a function of numbers. -/
noncomputable def spanned {n k : Nat} (A : Matrix (Fin n) (Fin k) ℝ) (i j : Nat) : ℝ :=
  if h : i < n ∧ j < k then A ⟨i, h.1⟩ ⟨j, h.2⟩ else 0

theorem jm_rect {α : Type} (n k : α → Nat) (A : ∀ a, Matrix (Fin (n a)) (Fin (k a)) ℝ) (l : List α) : ∀ i j,
    jm n k A l i j = rect (l.map fun a => (n a, k a, spanned (A a))) i j := by
  induction l with
  | nil => intro i; exact i.elim0
  | cons a t ih =>
    intro i j
    obtain ⟨i, rfl⟩ := (es n a t).surjective i
    obtain ⟨j, rfl⟩ := (es k a t).surjective j
    simp only [jm, submatrix_apply, Equiv.symm_apply_apply, List.map_cons, rect]
    rcases i with i | i <;> rcases j with j | j <;> simp [es_inl, es_inr, ih, spanned]

theorem jv_rect {α : Type} (n : α → Nat) (v : ∀ a, Fin (n a) → ℝ) (l : List α) : ∀ i,
    jv n v l i = concatOf (l.map fun a => ⟨n a, v a⟩) i := by
  intro i
  exact (congrFun (concatOf_jv n v l) i).symm

theorem rect_at (l : List (Nat × Nat × (Nat → Nat → ℝ))) : ∀ (a : Nat) (b : Nat × Nat × (Nat → Nat → ℝ)) (r j : Nat), l[a]? = some b →
    j < b.2.1 → r < (l.map fun b => b.1).sum → rect l r (((l.take a).map fun b => b.2.1).sum + j) =
      if ((l.take a).map fun b => b.1).sum ≤ r ∧ r < ((l.take a).map fun b => b.1).sum + b.1 then
        b.2.2 (r - ((l.take a).map fun b => b.1).sum) j else 0 := by
  induction l with
  | nil => intro a b r j h; simp at h
  | cons c t ih =>
    intro a b r j h hj hr
    cases a with
    | zero =>
      have h : c = b := by simpa using h
      subst h
      simp only [rect, List.take_zero, List.map_nil, List.sum_nil, Nat.zero_add, hj, if_true, Nat.zero_le, true_and, Nat.sub_zero]
    | succ a =>
      have h' : t[a]? = some b := by simpa using h
      simp only [List.take_succ_cons, List.map_cons, List.sum_cons] at hr ⊢
      have hnj : ¬ c.2.1 + ((t.take a).map fun b => b.2.1).sum + j < c.2.1 := by omega
      rw [rect]
      rw [if_neg hnj, if_neg hnj]
      by_cases hrc : r < c.1
      · rw [if_pos hrc, if_neg (by omega)]
      · rw [if_neg hrc]
        have e := ih a b (r - c.1) j h' hj (by omega)
        have e2 : c.2.1 + ((t.take a).map fun b => b.2.1).sum + j - c.2.1 = ((t.take a).map fun b => b.2.1).sum + j := by omega
        rw [e2, e]
        by_cases hc : ((t.take a).map fun b => b.1).sum ≤ r - c.1 ∧ r - c.1 < ((t.take a).map fun b => b.1).sum + b.1
        · rw [if_pos hc, if_pos (by omega), Nat.sub_sub]
        · rw [if_neg hc, if_neg (by omega)]

theorem margLog_ext {n n' m m' : Nat} (hn : n = n') (hm : m = m') (C : Matrix (Fin n) (Fin n) ℝ) (C' : Matrix (Fin n') (Fin n') ℝ)
    (M : Matrix (Fin n) (Fin m) ℝ) (M' : Matrix (Fin n') (Fin m') ℝ) (r : Fin n → ℝ) (r' : Fin n' → ℝ)
    (hC : ∀ i j, C i j = C' (Fin.cast hn i) (Fin.cast hn j)) (hM : ∀ i j, M i j = M' (Fin.cast hn i) (Fin.cast hm j))
    (hr : ∀ i, r i = r' (Fin.cast hn i)) : margLog C M r = margLog C' M' r' := by
  subst hn hm
  congr 1
  · ext i j; exact hC i j
  · ext i j; exact hM i j
  · ext i; exact hr i

theorem slots_procs (hash : Col ℝ → H) (orf : Nat → Pos → Pos → ℝ) (ps : List JPsr) (T : JPsr → Nat → Col ℝ) (Φ : JPsr → Kern ℝ)
    (hF : ∀ p ∈ ps, Facts hash (p.gps.map (bsig orf p.pos)) (T p) (Φ p)) :
    procs ps = (slots hash orf ps).map fun s => (rowStart ps s.a, s.p, s.g) := by
  unfold procs slots
  rw [List.map_flatMap]
  apply List.flatMap_congr
  rintro ⟨p, i⟩ hx
  obtain ⟨L, hL, -⟩ := (hF p (List.mem_of_getElem? (List.mem_zipIdx_iff_getElem?.1 hx))).points
  simp only
  generalize idxOf hash (p.gps.map (bsig orf p.pos)) = ix at hL
  have key : ∀ (gps : List GSig) (ix : List (Option (List Nat))), AllPoints L (gps.map (bsig orf p.pos)) ix →
      (gps.filter fun g => g.basis.isSome).map (fun g => (rowStart ps i, p, g)) =
        (slotsAt i p gps ix).map fun s => (rowStart ps s.a, s.p, s.g) := by
    intro gps
    induction gps with
    | nil => intro ix h; cases h; rfl
    | cons g t ih =>
      intro ix h
      rw [List.map_cons] at h
      cases h with
      | none hb ht =>
        have hb : g.basis = none := hb
        rw [List.filter_cons_of_neg (by simp [hb]), ih _ ht]
        rfl
      | some hb hp hn ht =>
        have hb : g.basis = some _ := hb
        rw [List.filter_cons_of_pos (by simp [hb]), List.map_cons, ih _ ht]
        rfl
  exact key _ _ hL

theorem off_take (phis : List (Option (Kern ℝ))) : ∀ o a, a < phis.length →
    off (slices phis o) a = o + ((phis.take a).map fun x => x.elim 0 Kern.size).sum := by
  induction phis with
  | nil => intro o a h; simp at h
  | cons k t ih =>
    intro o a h
    cases a with
    | zero => cases k <;> simp [off, slices]
    | succ a =>
      have h' : a < t.length := by simpa using h
      cases k with
      | none =>
        have := ih o a h'
        simp only [off] at this
        simp only [off, slices, List.getD_cons_succ, this, List.take_succ_cons, List.map_cons, List.sum_cons, Option.elim_none]
        omega
      | some k =>
        have := ih (o + k.size) a h'
        simp only [off] at this
        simp only [off, slices, List.getD_cons_succ, this, List.take_succ_cons, List.map_cons, List.sum_cons, Option.elim_some]
        omega

/-- A pulsar of the array with its basis and prior. -/
noncomputable def known (hash : Col ℝ → H) (orf : Nat → Pos → Pos → ℝ) (p : JPsr) (T : Nat → Col ℝ) (Φ : Kern ℝ)
    (f : Facts hash (p.gps.map (bsig orf p.pos)) T Φ) (m : Nat) (N : Matrix (Fin p.n) (Fin p.n) ℝ) (M : Matrix (Fin p.n) (Fin m) ℝ)
    (hN : ∃ o, getNdiag p.noise.reduceOption = .ok o ∧ Whole o N M fun _ => True) : Known where
  p := { n := p.n, res := p.res, delays := p.delays, noise := p.noise
         basis := some ⟨ncol (idxOf hash (p.gps.map (bsig orf p.pos))), Matrix.of fun a i => T i a⟩
         phi := some Φ, logprior := p.logprior }
  m := m
  k := ncol (idxOf hash (p.gps.map (bsig orf p.pos)))
  N := N
  M := M
  T := Matrix.of fun a i => T i a
  Φ := toMatrix _ (entries Φ)
  noise := hN.elim fun o ho => ⟨o, _, ho.1, ho.2, trivial⟩
  gp := .inr ⟨rfl, Φ, rfl, f.size, rfl⟩
  pos := f.pos

theorem known_collect (hash : Col ℝ → H) (orf : Nat → Pos → Pos → ℝ) (p : JPsr) (T : Nat → Col ℝ) (Φ : Kern ℝ)
    (f : Facts hash (p.gps.map (bsig orf p.pos)) T Φ) (m : Nat) (N : Matrix (Fin p.n) (Fin p.n) ℝ) (M : Matrix (Fin p.n) (Fin m) ℝ)
    (hN : ∃ o, getNdiag p.noise.reduceOption = .ok o ∧ Whole o N M fun _ => True) :
    Collect.collect hash (toPsr orf p) = .ok (known hash orf p T Φ f m N M hN).p := by
  unfold Collect.collect
  simp only [toPsr]
  rw [f.basis, f.phi]
  rfl

/-- What is needed of the pulsars of the array. -/
structure Stack (hash : Col ℝ → H) (orf : Nat → Pos → Pos → ℝ) (ps : List JPsr) (Φ : JPsr → Kern ℝ) (qs : List Known) : Prop where
  collect : (ps.mapM fun p => Collect.collect hash (toPsr orf p)) = .ok (qs.map Known.p)
  phis : phisOf qs = ps.map fun p => some (Φ p)
  basis : ∀ q ∈ qs, q.p.basis ≠ none
  prior : priors qs = (ps.map fun p => p.logprior.sum).sum

theorem stack (hash : Col ℝ → H) (orf : Nat → Pos → Pos → ℝ) (T : JPsr → Nat → Col ℝ) (Φ : JPsr → Kern ℝ) (m : JPsr → Nat)
    (N : ∀ p : JPsr, Matrix (Fin p.n) (Fin p.n) ℝ) (M : ∀ p : JPsr, Matrix (Fin p.n) (Fin (m p)) ℝ) :
    ∀ (ps : List JPsr), (∀ p ∈ ps, Facts hash (p.gps.map (bsig orf p.pos)) (T p) (Φ p)) → NoiseIs ps m N M →
    ∃ qs : List Known, Stack hash orf ps Φ qs ∧
      (qs.map fun q => (q.p.n, q.p.n, spanned q.N)) = (ps.map fun p => (p.n, p.n, spanned (N p))) ∧
      (qs.map fun q => (q.p.n, q.m, spanned q.M)) = (ps.map fun p => (p.n, m p, spanned (M p))) ∧
      (qs.map fun q => (q.p.n, q.k, spanned q.T)) = (ps.map fun p => (p.n, (Φ p).size,
        fun i j => if i < p.n ∧ j < (Φ p).size then T p j i else 0)) ∧
      (qs.map fun q => (⟨q.p.n, q.r⟩ : Σ n, Fin n → ℝ)) = (ps.map fun p => ⟨p.n, p.res - p.delays.reduceOption.sum⟩) := by
  intro ps
  induction ps with
  | nil => intro _ _; exact ⟨[], ⟨rfl, rfl, by simp, rfl⟩, rfl, rfl, rfl, rfl⟩
  | cons p t ih =>
    intro hF hN
    obtain ⟨qs, ⟨s1, s2, s3, s4⟩, h1, h2, h3, h4⟩ := ih (fun p hp => hF p (by simp [hp])) fun p hp => hN p (by simp [hp])
    have f := hF p (by simp)
    have hp := hN p (by simp)
    refine ⟨known hash orf p (T p) (Φ p) f (m p) (N p) (M p) hp :: qs, ⟨?_, ?_, ?_, ?_⟩, ?_, ?_, ?_, ?_⟩
    · rw [List.mapM_cons, known_collect hash orf p (T p) (Φ p) f (m p) (N p) (M p) hp, s1]
      rfl
    · unfold phisOf at s2 ⊢
      rw [List.map_cons, List.map_cons, List.map_cons, s2]
      rfl
    · intro q hq
      rcases List.mem_cons.1 hq with rfl | hq
      · simp [known]
      · exact s3 q hq
    · unfold priors at s4 ⊢
      rw [List.map_cons, List.sum_cons, s4, List.map_cons, List.sum_cons]
      rfl
    · rw [List.map_cons, List.map_cons, h1]
      rfl
    · rw [List.map_cons, List.map_cons, h2]
      rfl
    · rw [List.map_cons, List.map_cons, h3]
      congr 1
      simp only [known, f.size]
      rfl
    · rw [List.map_cons, List.map_cons, h4]
      rfl

/-- The stacked covariance, columns and residuals of the pulsars are those of the specification. -/
theorem stack_eq (hash : Col ℝ → H) (orf : Nat → Pos → Pos → ℝ) (ps : List JPsr) (h : Apt hash orf ps) (T : JPsr → Nat → Col ℝ)
    (Φ : JPsr → Kern ℝ) (hF : ∀ p ∈ ps, Facts hash (p.gps.map (bsig orf p.pos)) (T p) (Φ p)) (m : JPsr → Nat)
    (N : ∀ p : JPsr, Matrix (Fin p.n) (Fin p.n) ℝ) (M : ∀ p : JPsr, Matrix (Fin p.n) (Fin (m p)) ℝ) (hN : NoiseIs ps m N M) :
    ∃ qs : List Known, Stack hash orf ps Φ qs ∧ ∃ (hn : (qs.map fun q => q.p.n).sum = (ps.map JPsr.n).sum) (hm : (qs.map Known.m).sum = (ps.map m).sum),
      (∀ i j, jointCov qs (toMatrix (width qs) (bigF hash orf ps Φ)) i j =
        (jm JPsr.n JPsr.n N ps + toMatrix (ps.map JPsr.n).sum (gpCov orf ps)) (Fin.cast hn i) (Fin.cast hn j)) ∧
      (∀ i j, jointM qs i j = jm JPsr.n m M ps (Fin.cast hn i) (Fin.cast hm j)) ∧
      ∀ i, jointR qs i = jv JPsr.n (fun p => p.res - p.delays.reduceOption.sum) ps (Fin.cast hn i) := by
  obtain ⟨qs, hst, h1, h2, h3, h4⟩ := stack hash orf T Φ m N M ps hF hN
  have hw : width qs = PtaPhi.total (ps.map fun p => some (Φ p)) := by rw [← total_width, hst.phis]
  have hn : (qs.map fun q => q.p.n).sum = (ps.map JPsr.n).sum := by
    have := congrArg (fun l => (l.map fun b : Nat × Nat × (Nat → Nat → ℝ) => b.1).sum) h1
    simpa [List.map_map, Function.comp_def] using this
  have hm : (qs.map Known.m).sum = (ps.map m).sum := by
    have := congrArg (fun l => (l.map fun b : Nat × Nat × (Nat → Nat → ℝ) => b.2.1).sum) h2
    simpa [List.map_map, Function.comp_def] using this
  refine ⟨qs, hst, hn, hm, ?_, ?_, ?_⟩
  · intro i j
    unfold jointCov
    rw [Matrix.add_apply, Matrix.add_apply, jm_rect, jm_rect, h1]
    congr 1
    have e : (jm (fun q : Known => q.p.n) Known.k (fun q => q.T) qs * toMatrix (width qs) (bigF hash orf ps Φ) *
          (jm (fun q : Known => q.p.n) Known.k (fun q => q.T) qs)ᵀ) i j =
        bigQuad (width qs) (fun c r => rect (ps.map fun p => (p.n, (Φ p).size,
          fun i j => if i < p.n ∧ j < (Φ p).size then T p j i else 0)) r c) (bigF hash orf ps Φ) i j := by
      simp only [bigQuad, Matrix.mul_apply, toMatrix, Matrix.of_apply, Matrix.transpose_apply, jm_rect, h3]
      rw [Finset.sum_comm, Finset.sum_range]
      apply Finset.sum_congr rfl
      intro i _
      rw [Finset.sum_mul, Finset.sum_range]
    rw [e, hw, form_all hash orf ps h T Φ hF]
    simp only [toMatrix, Matrix.of_apply, gpCov, Fin.val_cast]
    rw [slots_procs hash orf ps T Φ hF, List.zipIdx_map, List.map_map]
    have hi : (i : Nat) < (ps.map JPsr.n).sum := hn ▸ i.2
    have hj : (j : Nat) < (ps.map JPsr.n).sum := hn ▸ j.2
    have hcol : ∀ s ∈ slots hash orf ps, (gl (slices (ps.map fun p => some (Φ p)) 0) s).length = s.g.basisAt.length ∧
        ∀ q r : Nat, q < s.g.basisAt.length → r < (ps.map JPsr.n).sum →
        rect (ps.map fun p => (p.n, (Φ p).size, fun i j => if i < p.n ∧ j < (Φ p).size then T p j i else 0)) r
          ((gl (slices (ps.map fun p => some (Φ p)) 0) s).getD q 0) = col (rowStart ps s.a, s.p, s.g) q r := by
      intro s hs
      obtain ⟨p, ok⟩ := slots_ok hash orf ps T Φ hF s hs
      refine ⟨by rw [gl, List.length_map, ok.len], fun q r hq hr => ?_⟩
      have hq' : q < s.idx.length := by rw [ok.len]; exact hq
      have ha : s.a < ps.length := (List.getElem?_eq_some_iff.1 ok.psr).1
      have hlt := ok.lt _ (List.getElem_mem hq')
      have eg : (gl (slices (ps.map fun p => some (Φ p)) 0) s).getD q 0 =
          (((ps.map fun p => (p.n, (Φ p).size, fun i j => if i < p.n ∧ j < (Φ p).size then T p j i else 0)).take s.a).map
            fun b : Nat × Nat × (Nat → Nat → ℝ) => b.2.1).sum + s.idx[q] := by
        rw [gl, List.getD_eq_getElem?_getD, List.getElem?_map, List.getElem?_eq_getElem hq']
        simp only [Option.map_some, Option.getD_some]
        rw [off_take _ 0 s.a (by simpa using ha), Nat.zero_add, ← List.map_take, ← List.map_take, List.map_map, List.map_map]
        rfl
      rw [eg, rect_at _ s.a (p.n, (Φ p).size, fun i j => if i < p.n ∧ j < (Φ p).size then T p j i else 0) r _
        (by rw [List.getElem?_map, ok.psr]; rfl) hlt (by rw [List.map_map]; exact hr)]
      have er : (((ps.map fun p => (p.n, (Φ p).size, fun i j => if i < p.n ∧ j < (Φ p).size then T p j i else 0)).take s.a).map
            fun b : Nat × Nat × (Nat → Nat → ℝ) => b.1).sum = rowStart ps s.a := by
        rw [← List.map_take, List.map_map]
        rfl
      rw [er]
      unfold col
      simp only [ok.eq]
      by_cases hc : rowStart ps s.a ≤ r ∧ r < rowStart ps s.a + p.n
      · rw [if_pos hc, if_pos hc, if_pos ⟨by omega, hlt⟩, ok.col q _ (List.getElem?_eq_getElem hq')]
      · rw [if_neg hc, if_neg hc]
    congr 1
    apply List.map_congr_left
    rintro ⟨s, u⟩ hs
    have hs : s ∈ slots hash orf ps := List.mem_of_getElem? (List.mem_zipIdx_iff_getElem?.1 hs)
    simp only [Function.comp, Prod.map, id]
    rw [List.map_map]
    congr 1
    apply List.map_congr_left
    rintro ⟨t, v⟩ ht
    have ht : t ∈ slots hash orf ps := List.mem_of_getElem? (List.mem_zipIdx_iff_getElem?.1 ht)
    simp only [Function.comp, Prod.map, id]
    unfold bil
    rw [(hcol s hs).1, (hcol t ht).1]
    apply Finset.sum_congr rfl
    intro p hp
    apply Finset.sum_congr rfl
    intro q hq
    simp only
    rw [(hcol s hs).2 p i (Finset.mem_range.1 hp) hi, (hcol t ht).2 q j (Finset.mem_range.1 hq) hj]
  · intro i j
    unfold jointM
    rw [jm_rect, jm_rect, h2]
    rfl
  · intro i
    unfold jointR
    rw [jv_rect, jv_rect]
    exact congrArg (fun l => concatOf l i) h4

/-- The joint density of the pulsars is that of the specification. -/
theorem density_eq (hash : Col ℝ → H) (orf : Nat → Pos → Pos → ℝ) (ps : List JPsr) (h : Apt hash orf ps) (T : JPsr → Nat → Col ℝ)
    (Φ : JPsr → Kern ℝ) (hF : ∀ p ∈ ps, Facts hash (p.gps.map (bsig orf p.pos)) (T p) (Φ p)) (m : JPsr → Nat)
    (N : ∀ p : JPsr, Matrix (Fin p.n) (Fin p.n) ℝ) (M : ∀ p : JPsr, Matrix (Fin p.n) (Fin (m p)) ℝ) (hN : NoiseIs ps m N M) :
    ∃ qs : List Known, Stack hash orf ps Φ qs ∧
      jointLog qs (toMatrix (width qs) (bigF hash orf ps Φ)) = density orf ps m N M := by
  obtain ⟨qs, hst, hn, hm, h1, h2, h3⟩ := stack_eq hash orf ps h T Φ hF m N M hN
  exact ⟨qs, hst, margLog_ext hn hm _ _ _ _ _ _ h1 h2 h3⟩

/-- The covariance of the stacked residuals is positive definite. -/
theorem cov_posDef (hash : Col ℝ → H) (orf : Nat → Pos → Pos → ℝ) (ps : List JPsr) (h : Apt hash orf ps) (m : JPsr → Nat)
    (N : ∀ p : JPsr, Matrix (Fin p.n) (Fin p.n) ℝ) (M : ∀ p : JPsr, Matrix (Fin p.n) (Fin (m p)) ℝ) (hN : NoiseIs ps m N M) :
    (jm JPsr.n JPsr.n N ps + toMatrix (ps.map JPsr.n).sum (gpCov orf ps)).PosDef := by
  obtain ⟨T, Φ, hF⟩ := h.facts
  obtain ⟨qs, hst, hn, hm, h1, h2, h3⟩ := stack_eq hash orf ps h T Φ hF m N M hN
  have hw : width qs = PtaPhi.total (ps.map fun p => some (Φ p)) := by rw [← total_width, hst.phis]
  have hpos : (toMatrix (width qs) (bigF hash orf ps Φ)).PosDef := by rw [hw]; exact bigF_pos hash orf ps h T Φ hF
  have hC := full_posDef (jm_posDef (fun q : Known => q.N) qs fun q _ => q.hN) hpos.posSemidef
    (jm (fun q : Known => q.p.n) Known.k (fun q => q.T) qs)
  have := hC.submatrix (e := Fin.cast hn.symm) (Fin.cast_injective hn.symm)
  convert this using 1
  ext i j
  exact (h1 (Fin.cast hn.symm i) (Fin.cast hn.symm j)).symm

/-- The covariance `get_phi` returns. -/
theorem phi_big (hash : Col ℝ → H) (orf : Nat → Pos → Pos → ℝ) (ps : List JPsr) (h : ∀ p ∈ ps, ∀ g ∈ p.gps, SigOk (bsig orf p.pos g))
    (hsz : ∀ c, ∀ u ∈ ofClass ps c, ∀ v ∈ ofClass ps c, ∃ n, SizeOk n u.1 ∧ SizeOk n v.1) (T : JPsr → Nat → Col ℝ)
    (Φ : JPsr → Kern ℝ) (hF : ∀ p ∈ ps, Facts hash (p.gps.map (bsig orf p.pos)) (T p) (Φ p)) :
    (∀ k ∈ klasses hash orf ps, KlassOk (slices (ps.map fun p => some (Φ p)) 0) k) ∧
    (klasses hash orf ps ≠ [] → PtaPhi.getPhi (ps.map fun p => some (Φ p)) (klasses hash orf ps) =
      .ok (.big (PtaPhi.total (ps.map fun p => some (Φ p))) (bigF hash orf ps Φ))) := by
  have hok : ∀ k ∈ klasses hash orf ps, KlassOk (slices (ps.map fun p => some (Φ p)) 0) k := by
    intro k hk
    obtain ⟨kv, hkv, rfl⟩ := List.mem_map.1 hk
    rw [dict_val hash orf ps kv (List.mem_filter.1 hkv).1]
    exact klass_ok hash orf ps h hsz T Φ hF kv.1
  refine ⟨hok, fun h0 => ?_⟩
  obtain ⟨F, e, hFF⟩ := PtaPhi.C48_entries _ _ h0 hok
  rw [e]
  congr 2
  funext i j
  exact hFF i j

/-- C107: the likelihood of an array given by its signals, common processes included, is the logarithm of the density of all the
residuals together, with the covariance of the noise plus that of all the processes, in which processes of one class are
correlated between pulsars by the overlap of the positions. -/
theorem C107_sparse (hash : Col ℝ → H) (svd : ∀ {n : Nat} (M : Matrix (Fin n) (Fin n) ℝ), Svd M) (orf : Nat → Pos → Pos → ℝ)
    (ps : List JPsr) (h : Apt hash orf ps) (m : JPsr → Nat) (N : ∀ p : JPsr, Matrix (Fin p.n) (Fin p.n) ℝ)
    (M : ∀ p : JPsr, Matrix (Fin p.n) (Fin (m p)) ℝ) (hN : NoiseIs ps m N M) :
    likelihood hash svd .sparse orf ps = .ok (some (density orf ps m N M + (ps.map fun p => p.logprior.sum).sum)) := by
  obtain ⟨T, Φ, hF⟩ := h.facts
  obtain ⟨qs, hst, e⟩ := density_eq hash orf ps h T Φ hF m N M hN
  have hw : width qs = PtaPhi.total (ps.map fun p => some (Φ p)) := by rw [← total_width, hst.phis]
  have hpos : (toMatrix (width qs) (bigF hash orf ps Φ)).PosDef := by rw [hw]; exact bigF_pos hash orf ps h T Φ hF
  unfold likelihood
  rw [hst.collect, ← e, ← hst.prior]
  simp only
  by_cases h0 : klasses hash orf ps = []
  · rw [h0, C84 svd .sparse (by simp) qs, ← jointLog_indep, ← blockDiag_jm]
    congr 5
    funext i j
    simp [bigF, h0, hst.phis]
  · exact C57_sparse svd qs hst.basis _ h0 _ (by rw [hst.phis]; exact (phi_big hash orf ps h.ok h.size T Φ hF).2 h0) hpos

/-! ## The other methods -/

theorem phiLoop_one : ∀ (l : List (BSig ℝ × Option (List Nat))) (n : Nat) (v : Nat → ℝ) (Φ' : Kern ℝ),
    (∀ x ∈ l, x.2 ≠ none → ∃ n v, x.1.phi = .one n v) → Combine.phiLoop l (.one n v) = .ok Φ' → ∃ n v, Φ' = .one n v := by
  intro l
  induction l with
  | nil => intro n v Φ' _ h; cases h; exact ⟨_, _, rfl⟩
  | cons x t ih =>
    intro n v Φ' hl h
    obtain ⟨s, o⟩ := x
    cases o with
    | none => exact ih n v Φ' (fun x hx => hl x (by simp [hx])) h
    | some l =>
      obtain ⟨k, w, e⟩ := hl (s, some l) (by simp) (by simp)
      simp only at e
      rw [Combine.phiLoop] at h
      split at h
      · cases h
      · rw [e] at h
        cases ha : Kern.add (.one n v) (.one k w) (.ints l) with
        | error e => rw [ha] at h; cases h
        | ok Ψ =>
          rw [ha] at h
          have hΨ : ∃ n v, Ψ = .one n v := by
            simp only [Kern.add, Kern.write] at ha
            split at ha
            · cases ha
            · split at ha
              · cases ha
              · cases ha; exact ⟨_, _, rfl⟩
          obtain ⟨n', v', rfl⟩ := hΨ
          exact ih n' v' Φ' (fun x hx => hl x (by simp [hx])) h

/-- All priors are vectors, all common processes are of one class, of which a pulsar has one at most. -/
structure OneClass (ps : List JPsr) (c : Nat) : Prop where
  vec : ∀ p ∈ ps, ∀ g ∈ p.gps, g.basis ≠ none → ∃ n v, g.prior = .one n v
  cls : ∀ p ∈ ps, ∀ g ∈ p.gps, g.basis ≠ none → g.cls = none ∨ g.cls = some c
  once : ∀ p ∈ ps, (p.gps.filter fun g => g.basis.isSome && decide (g.cls = some c)).length ≤ 1

theorem facts_one (hash : Col ℝ → H) (orf : Nat → Pos → Pos → ℝ) (ps : List JPsr) (T : JPsr → Nat → Col ℝ) (Φ : JPsr → Kern ℝ)
    (hF : ∀ p ∈ ps, Facts hash (p.gps.map (bsig orf p.pos)) (T p) (Φ p))
    (hv : ∀ p ∈ ps, ∀ g ∈ p.gps, g.basis ≠ none → ∃ n v, g.prior = .one n v) (p : JPsr) (hp : p ∈ ps) :
    ∃ n v, Φ p = .one n v := by
  have f := hF p hp
  obtain ⟨L, hL, -⟩ := f.points
  have hb : ∀ (sigs : List (BSig ℝ)) (ix : List (Option (List Nat))), AllPoints L sigs ix → ∀ x ∈ sigs.zip ix, x.2 ≠ none → x.1 ∈ sigs ∧ x.1.basis ≠ none := by
    intro sigs ix h
    induction h with
    | nil => simp
    | none hb ht ih =>
      intro x hx hne
      rcases List.mem_cons.1 hx with rfl | hx
      · exact absurd rfl hne
      · exact ⟨by simp [(ih x hx hne).1], (ih x hx hne).2⟩
    | some hb hp hn ht ih =>
      intro x hx hne
      rcases List.mem_cons.1 hx with rfl | hx
      · exact ⟨by simp, by simp [hb]⟩
      · exact ⟨by simp [(ih x hx hne).1], (ih x hx hne).2⟩
  have e := f.phi
  unfold Combine.getPhi at e
  simp only at e
  split at e
  · cases e
  · cases hl : Combine.phiLoop ((p.gps.map (bsig orf p.pos)).zip (idxOf hash (p.gps.map (bsig orf p.pos))))
        (Kern.zeros (ncol (idxOf hash (p.gps.map (bsig orf p.pos))))) with
    | error e' => rw [hl] at e; cases e
    | ok Φ' =>
      rw [hl] at e
      cases e
      refine phiLoop_one _ _ _ _ ?_ hl
      intro x hx hne
      obtain ⟨h1, h2⟩ := hb _ _ hL x hx hne
      obtain ⟨g, hg, eg⟩ := List.mem_map.1 h1
      rw [← eg] at h2 ⊢
      obtain ⟨n, v, e⟩ := hv p hp g hg h2
      simp only [bsig, e]
      cases g.cls with
      | none => exact ⟨_, _, rfl⟩
      | some c => exact ⟨_, _, rfl⟩

/-- C107: every way of inverting the prior gives that likelihood when the priors are vectors and there is one class of common
processes. -/
theorem C107_methods (hash : Col ℝ → H) (svd : ∀ {n : Nat} (M : Matrix (Fin n) (Fin n) ℝ), Svd M) (method : Method)
    (hm : method ≠ .other) (orf : Nat → Pos → Pos → ℝ) (ps : List JPsr) (h : Apt hash orf ps) (c : Nat) (hc : OneClass ps c)
    (m : JPsr → Nat) (N : ∀ p : JPsr, Matrix (Fin p.n) (Fin p.n) ℝ) (M : ∀ p : JPsr, Matrix (Fin p.n) (Fin (m p)) ℝ)
    (hN : NoiseIs ps m N M) :
    likelihood hash svd method orf ps = .ok (some (density orf ps m N M + (ps.map fun p => p.logprior.sum).sum)) := by
  obtain ⟨T, Φ, hF⟩ := h.facts
  obtain ⟨qs, hst, e⟩ := density_eq hash orf ps h T Φ hF m N M hN
  have hw : width qs = PtaPhi.total (ps.map fun p => some (Φ p)) := by rw [← total_width, hst.phis]
  have hpos : (toMatrix (width qs) (bigF hash orf ps Φ)).PosDef := by rw [hw]; exact bigF_pos hash orf ps h T Φ hF
  unfold likelihood
  rw [hst.collect, ← e, ← hst.prior]
  simp only
  by_cases h0 : klasses hash orf ps = []
  · rw [h0, C84 svd method hm qs, ← jointLog_indep, ← blockDiag_jm]
    congr 5
    funext i j
    simp [bigF, h0, hst.phis]
  · have hkey : ∀ kv ∈ (dict hash orf ps).filter (fun kv => decide (1 < kv.2.length)), kv.1 = c := by
      intro kv hkv
      obtain ⟨h1, h2⟩ := List.mem_filter.1 hkv
      have h2 : 1 < kv.2.length := by simpa using h2
      rw [dict_val hash orf ps kv h1, (members_slots hash orf ps T Φ hF kv.1).1, List.length_map] at h2
      obtain ⟨s, hs⟩ := List.exists_mem_of_length_pos (lt_trans Nat.zero_lt_one h2)
      obtain ⟨hs, hsc⟩ := List.mem_filter.1 hs
      have hsc : s.g.cls = some kv.1 := by simpa using hsc
      obtain ⟨p, ok⟩ := slots_ok hash orf ps T Φ hF s hs
      rcases hc.cls p (List.mem_of_getElem? ok.psr) s.g ok.mem ok.basis with h3 | h3
      · rw [h3] at hsc; cases hsc
      · rw [h3] at hsc; exact (Option.some.inj hsc).symm
    have hone : ∃ items, (dict hash orf ps).filter (fun kv => decide (1 < kv.2.length)) = [(c, items)] ∧ 1 < items.length ∧
        items = members (ps.map (psigs hash orf)) c := by
      have hnd : (((dict hash orf ps).filter fun kv => decide (1 < kv.2.length)).map Prod.fst).Nodup :=
        (dict_nodup hash orf ps).sublist (List.filter_sublist.map _)
      have hne : (dict hash orf ps).filter (fun kv => decide (1 < kv.2.length)) ≠ [] := by
        intro h1
        apply h0
        have : PtaPhi.commonSignals (ps.map (psigs hash orf)) = [] := h1
        rw [klasses, this]
        rfl
      have hmem : ∀ kv ∈ (dict hash orf ps).filter (fun kv => decide (1 < kv.2.length)), 1 < kv.2.length ∧
          kv.2 = members (ps.map (psigs hash orf)) kv.1 := fun kv hkv =>
        ⟨by simpa using (List.mem_filter.1 hkv).2, dict_val hash orf ps kv (List.mem_filter.1 hkv).1⟩
      generalize (dict hash orf ps).filter (fun kv => decide (1 < kv.2.length)) = d at *
      match d, hne, hnd, hkey, hmem with
      | [(c', items)], _, _, hkey, hmem =>
        obtain rfl : c' = c := hkey (c', items) (by simp)
        exact ⟨items, rfl, hmem (c', items) (by simp)⟩
      | a :: b :: t, _, hnd, hkey, _ =>
        have h1 := hkey a (by simp)
        have h2 := hkey b (by simp)
        simp [h1, h2] at hnd
    obtain ⟨items, hd, h2, hit⟩ := hone
    have hkl : klasses hash orf ps = [⟨items, cross orf ps c⟩] := by
      have : PtaPhi.commonSignals (ps.map (psigs hash orf)) = [(c, items)] := hd
      rw [klasses, this]
      rfl
    obtain ⟨m1, m2⟩ := members_slots hash orf ps T Φ hF c
    obtain ⟨F, e1, e2⟩ := C57_one_class svd qs hst.basis ⟨items, cross orf ps c⟩ h2 (by
        intro x hx
        rw [hst.phis] at hx
        obtain ⟨p, hp, ex⟩ := List.mem_map.1 hx
        cases ex
        exact facts_one hash orf ps T Φ hF hc.vec p hp) (by
        rw [hst.phis]
        exact (phi_big hash orf ps h.ok h.size T Φ hF).1 _ (by rw [hkl]; simp)) (by
        rintro ⟨⟨i1, x⟩, ⟨i2, y⟩⟩ hz
        obtain ⟨hx, hy⟩ := PtaPhi.mem_of_mem_pairs hz
        have hx : items[x]? = some i1 := List.mem_zipIdx_iff_getElem?.1 hx
        have hy : items[y]? = some i2 := List.mem_zipIdx_iff_getElem?.1 hy
        rw [hit, m1, List.getElem?_map] at hx hy
        obtain ⟨s, hs, -⟩ := Option.map_eq_some_iff.1 hx
        obtain ⟨t, ht, -⟩ := Option.map_eq_some_iff.1 hy
        obtain ⟨p, ok⟩ := slots_ok hash orf ps T Φ hF s (List.mem_filter.1 (List.mem_of_getElem? hs)).1
        obtain ⟨n, v, ev⟩ := hc.vec p (List.mem_of_getElem? ok.psr) s.g ok.mem ok.basis
        refine ⟨n, fun i => v i * orf c s.p.pos t.p.pos, ?_⟩
        simp only [cross]
        rw [m2, List.getElem?_map, List.getElem?_map, hs, ht]
        simp only [Option.map_some, ev, phicross]) (by
        intro it hi
        simp only [hit, m1] at hi
        obtain ⟨s, hs, rfl⟩ := List.mem_map.1 hi
        obtain ⟨p, ok⟩ := slots_ok hash orf ps T Φ hF s (List.mem_filter.1 hs).1
        rw [hst.phis, List.length_map]
        exact (List.getElem?_eq_some_iff.1 ok.psr).1) (by
        simp only [hit, m1]
        rw [List.pairwise_map]
        simp only
        unfold slots
        rw [List.filter_flatMap, List.pairwise_flatMap]
        have hps : ∀ x ∈ ps.zipIdx, x.1 ∈ ps := fun x hx => List.mem_of_getElem? (List.mem_zipIdx_iff_getElem?.1 hx)
        constructor
        · rintro ⟨p, i⟩ hx
          obtain ⟨L, hL, -⟩ := (hF p (hps _ hx)).points
          have hl := congrArg List.length (slotsAt_items (bsig orf p.pos) (fun _ => rfl) i p c L _ _ hL).2
          rw [List.length_map, List.length_map] at hl
          have := hc.once p (hps _ hx)
          rw [hl] at this
          simp only
          generalize (slotsAt i p p.gps (idxOf hash (p.gps.map (bsig orf p.pos)))).filter (fun s => decide (s.g.cls = some c)) = l at *
          match l, this with
          | [], _ => exact List.Pairwise.nil
          | [a], _ => exact List.pairwise_singleton _ _
        · have hidx : ps.zipIdx.Pairwise fun x y => x.2 ≠ y.2 := by
            have : (ps.zipIdx.map Prod.snd).Nodup := by
              rw [List.zipIdx_map_snd]
              exact List.nodup_range'
            rw [List.Nodup, List.pairwise_map] at this
            exact this
          refine hidx.imp_of_mem ?_
          rintro ⟨p, i⟩ ⟨q, j⟩ hx hy hne s hs t ht
          obtain ⟨L, hL, -⟩ := (hF p (hps _ hx)).points
          obtain ⟨L', hL', -⟩ := (hF q (hps _ hy)).points
          have h1 := (slotsAt_mem (bsig orf p.pos) (fun _ => rfl) (fun _ => rfl) i p L _ _ hL s (List.mem_filter.1 hs).1).1
          have h2 := (slotsAt_mem (bsig orf q.pos) (fun _ => rfl) (fun _ => rfl) j q L' _ _ hL' t (List.mem_filter.1 ht).1).1
          rw [h1, h2]
          exact hne)
    have hFb : F = bigF hash orf ps Φ := by
      have e3 := (phi_big hash orf ps h.ok h.size T Φ hF).2 h0
      rw [hst.phis, ← hkl, e3] at e1
      injection e1 with e1
      injection e1 with _ e1
      exact e1.symm
    rw [hkl]
    exact hFb ▸ e2 (hFb ▸ hpos) method hm

/-! ## The Hellings-Downs correlations -/

theorem ofClass_nodup (ps : List JPsr) (c d : Nat) (hc : OneClass ps c) (hd : (ps.map JPsr.pos).Nodup) :
    ((ofClass ps d).map Prod.snd).Nodup := by
  unfold ofClass
  rw [List.map_flatMap, List.Nodup, List.pairwise_flatMap]
  simp only [List.map_map, Function.comp_def]
  constructor
  · intro p hp
    have : (p.gps.filter fun g => g.basis.isSome && decide (g.cls = some d)).length ≤ 1 := by
      by_cases hcd : d = c
      · subst hcd; exact hc.once p hp
      · have : p.gps.filter (fun g => g.basis.isSome && decide (g.cls = some d)) = [] := by
          rw [List.filter_eq_nil_iff]
          intro g hg h
          obtain ⟨h1, h2⟩ : g.basis.isSome = true ∧ g.cls = some d := by simpa using h
          rcases hc.cls p hp g hg (Option.isSome_iff_ne_none.1 h1) with h3 | h3
          · rw [h3] at h2; cases h2
          · rw [h3] at h2; exact hcd (Option.some.inj h2).symm
        rw [this]
        simp
    generalize p.gps.filter (fun g => g.basis.isSome && decide (g.cls = some d)) = l at *
    match l, this with
    | [], _ => exact List.Pairwise.nil
    | [a], _ => exact List.pairwise_singleton _ _
  · rw [List.Nodup, List.pairwise_map] at hd
    refine hd.imp ?_
    intro p q hpq x hx y hy
    obtain ⟨g, -, rfl⟩ := List.mem_map.1 hx
    obtain ⟨g', -, rfl⟩ := List.mem_map.1 hy
    exact hpq

/-- C107 for a background with Hellings-Downs correlations and pulsars at distinct positions: nothing is left to assume about the
correlations, and every way of inverting the prior gives the density. -/
theorem C107_hellings_downs (hash : Col ℝ → H) (svd : ∀ {n : Nat} (M : Matrix (Fin n) (Fin n) ℝ), Svd M) (method : Method)
    (hm : method ≠ .other) (ps : List JPsr) (c : Nat) (hc : OneClass ps c) (hu : ∀ p ∈ ps, Orf.IsUnit3 p.pos)
    (hd : (ps.map JPsr.pos).Nodup)
    (ok : ∀ p ∈ ps, ∀ g ∈ p.gps, SigOk (bsig (fun _ => Orf.hdOrf) p.pos g))
    (ordered : ∀ p ∈ ps, Ordered (p.gps.map (bsig (fun _ => Orf.hdOrf) p.pos)))
    (hhash : ∀ p ∈ ps, HashOk hash (p.gps.map (bsig (fun _ => Orf.hdOrf) p.pos)))
    (hsome : ∀ p ∈ ps, ∃ g ∈ p.gps, g.basis ≠ none)
    (hpos : ∀ p ∈ ps, ∀ g ∈ p.gps, g.basis ≠ none → (toMatrix g.basisAt.length (amat g.prior)).PosDef)
    (same : ∀ d, ∀ u ∈ ofClass ps d, ∀ v ∈ ofClass ps d, u.1 = v.1)
    (m : JPsr → Nat) (N : ∀ p : JPsr, Matrix (Fin p.n) (Fin p.n) ℝ) (M : ∀ p : JPsr, Matrix (Fin p.n) (Fin (m p)) ℝ)
    (hN : NoiseIs ps m N M) :
    likelihood hash svd method (fun _ => Orf.hdOrf) ps =
      .ok (some (density (fun _ => Orf.hdOrf) ps m N M + (ps.map fun p => p.logprior.sum).sum)) := by
  refine C107_methods hash svd method hm _ ps ⟨ok, ordered, hhash, hsome, hpos, same, fun d => ?_⟩ c hc m N M hN
  refine (Orf.C71_hd_distinct _ (fun i => ?_) ?_).1
  · obtain ⟨p, hp, hx⟩ := List.mem_flatMap.1 (List.getElem_mem i.2 : (ofClass ps d)[i.1] ∈ ofClass ps d)
    obtain ⟨g, -, e⟩ := List.mem_map.1 hx
    have := hu p hp
    simp only [Fin.getElem_fin]
    rw [← e]
    exact this
  · intro i j hij
    have hnd := ofClass_nodup ps c d hc hd
    have := (List.Nodup.getElem_inj_iff hnd (i := i.1) (j := j.1) (hi := by simp) (hj := by simp)).1 (by simpa using hij)
    exact Fin.ext this

/-! ## Processes of a class with different priors -/

/-- A pulsar with one TOA and one process of class 0, of one column and variance `v`. -/
noncomputable def lone (pos : Pos) (v : ℝ) : JPsr where
  n := 1
  pos := pos
  res := fun _ => 1
  delays := []
  noise := [some (.base (.arr fun _ => 1))]
  gps := [⟨true, false, some [fun _ => 1], [fun _ => 1], .one 1 fun _ => v, some 0⟩]
  logprior := []

theorem lone_ok (orf : Nat → Pos → Pos → ℝ) (pos : Pos) (v : ℝ) : ∀ g ∈ (lone pos v).gps, SigOk (bsig orf (lone pos v).pos g) := by
  intro g hg F hF
  obtain rfl : g = ⟨true, false, some [fun _ => 1], [fun _ => 1], .one 1 fun _ => v, some 0⟩ := by simpa [lone] using hg
  have hF : some [fun _ => 1] = some F := hF
  cases hF
  refine ⟨by simp, rfl, fun _ => rfl, rfl, fun _ _ => by simp⟩

theorem lone_ordered (orf : Nat → Pos → Pos → ℝ) (pos : Pos) (v : ℝ) : Ordered ((lone pos v).gps.map (bsig orf pos)) := by
  simp [lone, Ordered]

theorem lone_hash (hash : Col ℝ → H) (orf : Nat → Pos → Pos → ℝ) (pos : Pos) (v : ℝ) :
    HashOk hash ((lone pos v).gps.map (bsig orf pos)) := by
  intro s hs s' hs' F F' hF hF' c hc c' hc' _
  simp only [lone, List.map_cons, List.map_nil, List.mem_singleton] at hs hs'
  subst hs hs'
  have hF : some [fun _ => 1] = some F := hF
  have hF' : some [fun _ => 1] = some F' := hF'
  cases hF
  cases hF'
  rw [List.mem_singleton.1 hc, List.mem_singleton.1 hc']

theorem lone_pos (pos : Pos) (v : ℝ) (hv : 0 < v) : ∀ g ∈ (lone pos v).gps, g.basis ≠ none →
    (toMatrix g.basisAt.length (amat g.prior)).PosDef := by
  intro g hg _
  obtain rfl : g = ⟨true, false, some [fun _ => 1], [fun _ => 1], .one 1 fun _ => v, some 0⟩ := by simpa [lone] using hg
  have : toMatrix 1 (amat (.one 1 fun _ => v)) = Matrix.diagonal fun _ => v := by
    ext i j
    fin_cases i; fin_cases j
    simp [toMatrix, amat]
  show (toMatrix 1 (amat (.one 1 fun _ => v))).PosDef
  rw [this, Matrix.posDef_diagonal_iff]
  exact fun _ => hv

theorem lone_noise (ps : List JPsr) (h : ∀ p ∈ ps, ∃ pos v, p = lone pos v) :
    NoiseIs ps (fun _ => 0) (fun _ => Matrix.diagonal fun _ => 1) fun _ => 0 := by
  intro p hp
  obtain ⟨pos, v, rfl⟩ := h p hp
  exact ⟨.base (.arr fun _ => 1), rfl, whole_base (arr_exact (fun _ : Fin 1 => (1 : ℝ)) fun _ => one_pos) 0⟩

theorem lone_idx (hash : Col ℝ → H) (orf : Nat → Pos → Pos → ℝ) (pos : Pos) (v : ℝ) :
    idxOf hash ((lone pos v).gps.map (bsig orf pos)) = [some [0]] := by
  simp [lone, idxOf, combineIdx, bsig, columns]

/-- The one process of that pulsar. -/
noncomputable def loneSig (v : ℝ) : GSig := ⟨true, false, some [fun _ => 1], [fun _ => 1], .one 1 fun _ => v, some 0⟩

theorem lone_slots (hash : Col ℝ → H) (orf : Nat → Pos → Pos → ℝ) (p q : Pos) (v w : ℝ) :
    slots hash orf [lone p v, lone q w] = [⟨0, lone p v, loneSig v, [0]⟩, ⟨1, lone q w, loneSig w, [0]⟩] := by
  have h1 := lone_idx hash orf p v
  have h2 := lone_idx hash orf q w
  have e1 : (lone p v).pos = p := rfl
  have e2 : (lone q w).pos = q := rfl
  simp only [slots, List.zipIdx_cons, List.zipIdx_nil, List.flatMap_cons, List.flatMap_nil, e1, e2, h1, h2]
  rfl

theorem lone_ofClass (p q : Pos) (v w : ℝ) (c : Nat) :
    ofClass [lone p v, lone q w] c = if c = 0 then [(.one 1 fun _ => v, p), (.one 1 fun _ => w, q)] else [] := by
  by_cases hc : c = 0
  · subst hc
    simp [ofClass, lone]
  · have : ¬ 0 = c := fun e => hc e.symm
    simp [ofClass, lone, hc, this]

theorem lone_dict (hash : Col ℝ → H) (orf : Nat → Pos → Pos → ℝ) (p q : Pos) (v w : ℝ) :
    dict hash orf [lone p v, lone q w] = [(0, [⟨0, [0]⟩, ⟨1, [0]⟩])] := by
  have h1 := lone_idx hash orf p v
  have h2 := lone_idx hash orf q w
  have e1 : (lone p v).pos = p := rfl
  have e2 : (lone q w).pos = q := rfl
  simp only [dict, List.map_cons, List.map_nil, psigs, e1, e2, h1, h2]
  rfl

/-- C107 asks the processes of a class to have the same prior.  This cannot be dropped: with a variance of 4 in one pulsar and of
1 in another, and the monopole correlations, the cross term is that of the first pulsar and the prior is no covariance; the
likelihood raises. -/
theorem C107_same_needed (hash : Col ℝ → H) (svd : ∀ {n : Nat} (M : Matrix (Fin n) (Fin n) ℝ), Svd M) :
    ∃ ps : List JPsr, (∀ p ∈ ps, ∀ g ∈ p.gps, SigOk (bsig (fun _ => Orf.monopoleOrf) p.pos g)) ∧
      (∀ p ∈ ps, Ordered (p.gps.map (bsig (fun _ => Orf.monopoleOrf) p.pos))) ∧
      (∀ p ∈ ps, HashOk hash (p.gps.map (bsig (fun _ => Orf.monopoleOrf) p.pos))) ∧
      (∀ p ∈ ps, ∃ g ∈ p.gps, g.basis ≠ none) ∧
      (∀ p ∈ ps, ∀ g ∈ p.gps, g.basis ≠ none → (toMatrix g.basisAt.length (amat g.prior)).PosDef) ∧
      (∀ c, (orfMatrix Orf.monopoleOrf fun u : Fin (ofClass ps c).length => ((ofClass ps c)[u]).2).PosDef) ∧
      NoiseIs ps (fun _ => 0) (fun _ => Matrix.diagonal fun _ => 1) (fun _ => 0) ∧
      likelihood hash svd .sparse (fun _ => Orf.monopoleOrf) ps = .error .linAlgError := by
  have hpq : (![1, 0, 0] : Pos) ≠ ![0, 1, 0] := by
    intro h
    have := congrFun h 0
    simp at this
  have hall : ∀ x ∈ [lone ![1, 0, 0] 4, lone ![0, 1, 0] 1], ∃ pos v, x = lone pos v ∧ 0 < v := by
    intro x hx
    simp only [List.mem_cons, List.not_mem_nil, or_false] at hx
    rcases hx with rfl | rfl
    · exact ⟨_, _, rfl, by norm_num⟩
    · exact ⟨_, _, rfl, by norm_num⟩
  have ok : ∀ p ∈ [lone ![1, 0, 0] 4, lone ![0, 1, 0] 1], ∀ g ∈ p.gps, SigOk (bsig (fun _ => Orf.monopoleOrf) p.pos g) := by
    intro p hp
    obtain ⟨pos, v, rfl, -⟩ := hall p hp
    exact lone_ok _ pos v
  have ordered : ∀ p ∈ [lone ![1, 0, 0] 4, lone ![0, 1, 0] 1], Ordered (p.gps.map (bsig (fun _ => Orf.monopoleOrf) p.pos)) := by
    intro p hp
    obtain ⟨pos, v, rfl, -⟩ := hall p hp
    exact lone_ordered _ pos v
  have hhash : ∀ p ∈ [lone ![1, 0, 0] 4, lone ![0, 1, 0] 1], HashOk hash (p.gps.map (bsig (fun _ => Orf.monopoleOrf) p.pos)) := by
    intro p hp
    obtain ⟨pos, v, rfl, -⟩ := hall p hp
    exact lone_hash _ _ pos v
  have hsome : ∀ p ∈ [lone ![1, 0, 0] 4, lone ![0, 1, 0] 1], ∃ g ∈ p.gps, g.basis ≠ none := by
    intro p hp
    obtain ⟨pos, v, rfl, -⟩ := hall p hp
    exact ⟨_, List.mem_singleton_self _, by simp⟩
  have hpos : ∀ p ∈ [lone ![1, 0, 0] 4, lone ![0, 1, 0] 1], ∀ g ∈ p.gps, g.basis ≠ none →
      (toMatrix g.basisAt.length (amat g.prior)).PosDef := by
    intro p hp
    obtain ⟨pos, v, rfl, hv⟩ := hall p hp
    exact lone_pos pos v hv
  have hnoise : NoiseIs [lone ![1, 0, 0] 4, lone ![0, 1, 0] 1] (fun _ => 0) (fun _ => Matrix.diagonal fun _ => 1) (fun _ => 0) :=
    lone_noise _ fun p hp => by obtain ⟨pos, v, e, -⟩ := hall p hp; exact ⟨pos, v, e⟩
  have hm0 : ∀ p : Pos, Orf.monopoleOrf p p = 1 + 1e-5 := fun p => by simp [Orf.monopoleOrf]
  have hm1 : Orf.monopoleOrf ![1, 0, 0] ![0, 1, 0] = 1 := by simp only [Orf.monopoleOrf, if_neg hpq]
  refine ⟨_, ok, ordered, hhash, hsome, hpos, fun c => ?_, hnoise, ?_⟩
  · refine Orf.C71_monopole _ fun i j hij => ?_
    have hl := lone_ofClass ![1, 0, 0] ![0, 1, 0] 4 1 c
    have hnd : ((ofClass [lone ![1, 0, 0] 4, lone ![0, 1, 0] 1] c).map Prod.snd).Nodup := by
      rw [hl]
      split
      · simp [hpq]
      · simp
    have := (List.Nodup.getElem_inj_iff hnd (i := i.1) (j := j.1) (hi := by simp) (hj := by simp)).1 (by simpa using hij)
    exact Fin.ext this
  · have key : ∀ p ∈ [lone ![1, 0, 0] 4, lone ![0, 1, 0] 1], ∃ (T : Nat → Col ℝ) (Φ : Kern ℝ),
        Facts hash (p.gps.map (bsig (fun _ => Orf.monopoleOrf) p.pos)) T Φ := by
      intro p hp
      refine facts hash _ ?_ (ordered p hp) (hhash p hp) ?_ ?_
      · intro s hs
        obtain ⟨g, hg, rfl⟩ := List.mem_map.1 hs
        exact ok p hp g hg
      · obtain ⟨g, hg, hb⟩ := hsome p hp
        exact ⟨_, List.mem_map.2 ⟨g, hg, rfl⟩, hb⟩
      · obtain ⟨pos, v, rfl, hv⟩ := hall p hp
        intro s hs hb
        have hs : s = bsig (fun _ => Orf.monopoleOrf) pos (loneSig v) := by simpa [lone, loneSig] using hs
        subst hs
        have : toMatrix 1 (amat (phicross (.one 1 fun _ => v) (Orf.monopoleOrf pos pos))) = Matrix.diagonal fun _ => v * (1 + 1e-5) := by
          ext i j
          fin_cases i; fin_cases j
          simp [toMatrix, amat, phicross, hm0]
        show (toMatrix 1 (amat (phicross (.one 1 fun _ => v) (Orf.monopoleOrf pos pos)))).PosDef
        rw [this, Matrix.posDef_diagonal_iff]
        exact fun _ => by positivity
    haveI : Nonempty (Kern ℝ) := ⟨.one 0 fun _ => 0⟩
    choose! T Φ hF using key
    have hsz : ∀ c, ∀ u ∈ ofClass [lone ![1, 0, 0] 4, lone ![0, 1, 0] 1] c, ∀ v ∈ ofClass [lone ![1, 0, 0] 4, lone ![0, 1, 0] 1] c,
        ∃ n, SizeOk n u.1 ∧ SizeOk n v.1 := by
      intro c u hu v hv
      rw [lone_ofClass] at hu hv
      by_cases hc : c = 0
      · rw [if_pos hc] at hu hv
        simp only [List.mem_cons, List.not_mem_nil, or_false] at hu hv
        rcases hu with rfl | rfl <;> rcases hv with rfl | rfl <;> exact ⟨1, rfl, rfl⟩
      · rw [if_neg hc] at hu
        cases hu
    have hk : klasses hash (fun _ => Orf.monopoleOrf) [lone ![1, 0, 0] 4, lone ![0, 1, 0] 1] ≠ [] := by
      have : PtaPhi.commonSignals ([lone ![1, 0, 0] 4, lone ![0, 1, 0] 1].map (psigs hash fun _ => Orf.monopoleOrf)) =
          [(0, [⟨0, [0]⟩, ⟨1, [0]⟩])] := by
        have := lone_dict hash (fun _ => Orf.monopoleOrf) ![1, 0, 0] ![0, 1, 0] 4 1
        unfold dict at this
        unfold PtaPhi.commonSignals
        rw [this]
        rfl
      rw [klasses, this]
      simp
    obtain ⟨qs, hst, -⟩ := stack hash (fun _ => Orf.monopoleOrf) T Φ _ _ _ _ hF hnoise
    have hbig := (phi_big hash (fun _ => Orf.monopoleOrf) _ ok hsz T Φ hF).2 hk
    have hnot : ¬ (toMatrix (PtaPhi.total ([lone ![1, 0, 0] 4, lone ![0, 1, 0] 1].map fun p => some (Φ p)))
        (bigF hash (fun _ => Orf.monopoleOrf) [lone ![1, 0, 0] 4, lone ![0, 1, 0] 1] Φ)).PosDef := by
      intro hpd
      have hge := (form_pos hpd fun i => if i = 0 then 1 else -1).1
      unfold form at hge
      rw [form_pairs hash (fun _ => Orf.monopoleOrf) _ T Φ hF] at hge
      have hsize : ∀ p v, lone p v ∈ [lone ![1, 0, 0] 4, lone ![0, 1, 0] 1] → (Φ (lone p v)).size = 1 := by
        intro p v hp
        have := (hF _ hp).size
        rw [this]
        have e1 : (lone p v).pos = p := rfl
        rw [e1, lone_idx]
        rfl
      have hs0 := hsize _ _ (by simp : lone ![1, 0, 0] 4 ∈ _)
      have hsl : slices ([lone ![1, 0, 0] 4, lone ![0, 1, 0] 1].map fun p => some (Φ p)) 0 =
          [(0, 1), (1, (Φ (lone ![0, 1, 0] 1)).size)] := by
        simp [slices, hs0]
      rw [hsl, lone_slots, lone_dict] at hge
      have e0 : (lone ![1, 0, 0] 4).pos = ![1, 0, 0] := rfl
      have e1 : (lone ![0, 1, 0] 1).pos = ![0, 1, 0] := rfl
      simp [loneSig, gl, off, bil, bsig, phicross, amat, pairs, pairBil, hm0, hm1, e0, e1] at hge
      norm_num at hge
    unfold likelihood
    rw [hst.collect]
    simp only
    have h1 := mapM_ok Known.p PsrEval.TNr Known.oTNr qs fun q _ => q.TNr_eq
    have h2 := mapM_ok Known.p PsrEval.TNT Known.oTNT qs fun q _ => q.TNT_eq
    have hph : (qs.map Known.p).map PsrEval.phi = [lone ![1, 0, 0] 4, lone ![0, 1, 0] 1].map fun p => some (Φ p) := hst.phis
    have hinv : bigPhiinv svd ([lone ![1, 0, 0] 4, lone ![0, 1, 0] 1].map fun p => some (Φ p))
        (klasses hash (fun _ => Orf.monopoleOrf) [lone ![1, 0, 0] 4, lone ![0, 1, 0] 1]) .sparse = .error .linAlgError := by
      simp only [bigPhiinv, hbig, if_neg hnot]
    rw [← hph] at hinv
    generalize klasses hash (fun _ => Orf.monopoleOrf) [lone ![1, 0, 0] 4, lone ![0, 1, 0] 1] = cs at *
    match cs, hk with
    | c :: t, _ =>
      unfold lnlike
      rw [h1, h2]
      simp only [bind, Except.bind, hinv]

/-! ## A case -/

/-- Two pulsars at right angles with a background of variance 3: the hypotheses of `C107_hellings_downs` and `C107_sparse`. -/
example (hash : Col ℝ → H) : let ps := [lone ![1, 0, 0] 3, lone ![0, 1, 0] 3]
    Apt hash (fun _ => Orf.hdOrf) ps ∧ OneClass ps 0 ∧ (∀ p ∈ ps, Orf.IsUnit3 p.pos) ∧ (ps.map JPsr.pos).Nodup ∧
      NoiseIs ps (fun _ => 0) (fun _ => Matrix.diagonal fun _ => 1) fun _ => 0 := by
  have hpq : (![1, 0, 0] : Pos) ≠ ![0, 1, 0] := by
    intro h
    have := congrFun h 0
    simp at this
  have hall : ∀ x ∈ [lone ![1, 0, 0] 3, lone ![0, 1, 0] 3], ∃ pos, x = lone pos 3 ∧ Orf.IsUnit3 pos := by
    intro x hx
    simp only [List.mem_cons, List.not_mem_nil, or_false] at hx
    rcases hx with rfl | rfl
    · exact ⟨_, rfl, by simp [Orf.IsUnit3, Orf.dot, Fin.sum_univ_three]⟩
    · exact ⟨_, rfl, by simp [Orf.IsUnit3, Orf.dot, Fin.sum_univ_three]⟩
  have hone : OneClass [lone ![1, 0, 0] 3, lone ![0, 1, 0] 3] 0 := by
    refine ⟨?_, ?_, ?_⟩
    · intro p hp g hg _
      obtain ⟨pos, rfl, -⟩ := hall p hp
      obtain rfl : g = loneSig 3 := by simpa [lone, loneSig] using hg
      exact ⟨_, _, rfl⟩
    · intro p hp g hg _
      obtain ⟨pos, rfl, -⟩ := hall p hp
      obtain rfl : g = loneSig 3 := by simpa [lone, loneSig] using hg
      exact .inr rfl
    · intro p hp
      obtain ⟨pos, rfl, -⟩ := hall p hp
      simp [lone]
  have hnd : ([lone ![1, 0, 0] 3, lone ![0, 1, 0] 3].map JPsr.pos).Nodup := by
    simp [lone, hpq]
  refine ⟨⟨?_, ?_, ?_, ?_, ?_, ?_, ?_⟩, hone, ?_, hnd, ?_⟩
  · intro p hp
    obtain ⟨pos, rfl, -⟩ := hall p hp
    exact lone_ok _ pos 3
  · intro p hp
    obtain ⟨pos, rfl, -⟩ := hall p hp
    exact lone_ordered _ pos 3
  · intro p hp
    obtain ⟨pos, rfl, -⟩ := hall p hp
    exact lone_hash _ _ pos 3
  · intro p hp
    obtain ⟨pos, rfl, -⟩ := hall p hp
    exact ⟨_, List.mem_singleton_self _, by simp⟩
  · intro p hp
    obtain ⟨pos, rfl, -⟩ := hall p hp
    exact lone_pos pos 3 (by norm_num)
  · intro c u hu v hv
    rw [lone_ofClass] at hu hv
    by_cases hc : c = 0
    · rw [if_pos hc] at hu hv
      simp only [List.mem_cons, List.not_mem_nil, or_false] at hu hv
      rcases hu with rfl | rfl <;> rcases hv with rfl | rfl <;> rfl
    · rw [if_neg hc] at hu
      cases hu
  · intro d
    refine (Orf.C71_hd_distinct _ (fun i => ?_) ?_).1
    · obtain ⟨p, hp, hx⟩ := List.mem_flatMap.1 (List.getElem_mem i.2)
      obtain ⟨g, -, e⟩ := List.mem_map.1 hx
      obtain ⟨pos, rfl, hu⟩ := hall p hp
      simp only [Fin.getElem_fin]
      rw [← e]
      exact hu
    · intro i j hij
      have := (List.Nodup.getElem_inj_iff (ofClass_nodup _ 0 d hone hnd) (i := i.1) (j := j.1) (hi := by simp) (hj := by simp)).1
        (by simpa using hij)
      exact Fin.ext this
  · intro p hp
    obtain ⟨pos, rfl, hu⟩ := hall p hp
    exact hu
  · exact lone_noise _ fun p hp => by obtain ⟨pos, e, -⟩ := hall p hp; exact ⟨pos, 3, e⟩

end Verif.Joined
