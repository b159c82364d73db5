import Verif.Props.Draws
import Verif.Props.LikelihoodJoint
import Verif.Props.Combine
import Verif.Lemmas.Dict

/-!
Which coefficients belong to which signal (C59, C60).
-/

namespace Verif.Coefficients

open Verif Verif.Noise Verif.Joint Verif.Likelihood Verif.Combine Matrix
open Verif.Kernel (Kern)
open Verif.PhiInv (toMatrix)
open Verif.PtaPhi (entries Klass)
open Verif.Partition (Svd kernInv)

variable {H : Type} [DecidableEq H]

/-! ## Specification -/

/-- The positions of the columns of each signal of a pulsar in its basis, as `get_basis` places them (C46),
from `off` on. -/
def positions (hash : Col ℝ → H) (sigs : List LSig) (off : Nat) : List (String × List Nat) :=
  (sigs.zip (idxOf hash (sigs.map LSig.b))).filterMap fun x => x.2.map fun l => (x.1.name, l.map (off + ·))

/-- The number of columns of a pulsar's basis. -/
def width1 (hash : Col ℝ → H) (sigs : List LSig) : Nat := ncol (idxOf hash (sigs.map LSig.b))

/-- The same for all the pulsars: the coefficients of a pulsar follow those of the one before. -/
def place (hash : Col ℝ → H) : List (List LSig) → Nat → List (String × List Nat)
  | [], _ => []
  | p :: t, off => positions hash p off ++ place hash t (off + width1 hash p)

/-- The number of coefficients of all the pulsars. -/
def vecLen (hash : Col ℝ → H) (models : List (List LSig)) : Nat := (models.map (width1 hash)).sum

/-- No two columns of a pulsar share a position. -/
def Distinct (hash : Col ℝ → H) (sigs : List LSig) : Prop :=
  ((idxOf hash (sigs.map LSig.b)).flatMap fun o => o.getD []).Nodup

/-- Signals with a basis are those of types "basis" and "common basis", and the number of columns does not
depend on the parameters. -/
def Plain (s : LSig) : Prop :=
  (s.kind = .other ↔ s.b.basis = none) ∧ ∀ F, s.b.basis = some F → s.b.basisAt.length = F.length

/-! ## Positions without sharing -/

/-- Consecutive positions. -/
def seqIdx : List (BSig ℝ) → Nat → List (Option (List Nat))
  | [], _ => []
  | s :: t, cc =>
    match s.basis with
    | none => none :: seqIdx t cc
    | some F => some (List.range' cc F.length) :: seqIdx t (cc + F.length)

/-- The number of columns of all signals, counting shared ones for each. -/
def tot : List (BSig ℝ) → Nat
  | [] => 0
  | s :: t => (s.basis.map List.length).getD 0 + tot t

theorem columns_length (hash : Col ℝ → H) (b : Bool) (F : List (Col ℝ)) : ∀ (hl : List H) (cc : Nat),
    (columns hash b F hl cc).1.length = F.length := by
  induction F with
  | nil => intro hl cc; rfl
  | cons c t ih =>
    intro hl cc
    rw [columns]
    split <;> simp [ih]

theorem columns_hl (hash : Col ℝ → H) (b : Bool) (F : List (Col ℝ)) : ∀ (hl : List H) (cc : Nat),
    hl.length ≤ cc → (columns hash b F hl cc).2.1.length ≤ (columns hash b F hl cc).2.2 :=
  fun hl cc h => (columns_cover hash b F hl cc h).2

theorem columns_seq (hash : Col ℝ → H) (b : Bool) (F : List (Col ℝ)) : ∀ (hl : List H) (cc : Nat),
    hl.length ≤ cc → (∀ i ∈ (columns hash b F hl cc).1, cc ≤ i) →
    (columns hash b F hl cc).1.Nodup →
    (columns hash b F hl cc).1 = List.range' cc F.length ∧ (columns hash b F hl cc).2.2 = cc + F.length := by
  induction F with
  | nil => intro hl cc _ _ _; exact ⟨rfl, rfl⟩
  | cons c t ih =>
    intro hl cc h hge hnd
    rw [columns] at hge hnd ⊢
    split at hge
    · rename_i hc
      have := hge (hl.idxOf (hash c)) (by simp)
      have := List.idxOf_lt_length_iff.2 hc.2
      omega
    · rename_i hc
      rw [if_neg hc] at hnd ⊢
      simp only [List.nodup_cons] at hnd
      obtain ⟨h1, h2⟩ := ih (hl ++ [hash c]) (cc + 1) (by simpa using h) (by
        intro i hi
        have h1 := hge i (by simp [hi])
        have : i ≠ cc := fun e => hnd.1 (e ▸ hi)
        omega) hnd.2
      refine ⟨?_, ?_⟩
      · simp only [h1, List.length_cons]; rfl
      · simp only [h2, List.length_cons]; omega

theorem combine_seq (hash : Col ℝ → H) (sigs : List (BSig ℝ)) : ∀ (hl : List H) (cc : Nat), hl.length ≤ cc →
    (∀ i ∈ (combineIdx hash sigs hl cc).flatMap fun o => o.getD [], cc ≤ i) →
    ((combineIdx hash sigs hl cc).flatMap fun o => o.getD []).Nodup →
    combineIdx hash sigs hl cc = seqIdx sigs cc := by
  induction sigs with
  | nil => intro hl cc _ _ _; rfl
  | cons s t ih =>
    intro hl cc h hge hnd
    rw [combineIdx] at hge hnd ⊢
    rw [seqIdx]
    cases hb : s.basis with
    | none =>
      rw [hb] at hge hnd
      rw [ih hl cc h (by simpa using hge) (by simpa using hnd)]
    | some F =>
      rw [hb] at hge hnd
      simp only at hge hnd ⊢
      split at hge
      · rename_i hv
        rw [if_pos hv] at hnd ⊢
        simp only [List.flatMap_cons, Option.getD_some, List.nodup_append] at hnd
        obtain ⟨h1, h2⟩ := columns_seq hash s.combine F hl cc h (fun i hi => hge i (by simp [hi])) hnd.1
        rw [h1, h2]
        rw [h1, h2] at hnd
        congr 1
        apply ih _ _ _ _ hnd.2.1
        · rw [← h2]; exact columns_hl hash s.combine F hl cc h
        · intro i hi
          have hge' := hge i (by rw [h2]; simp only [List.flatMap_cons, List.mem_append]; exact Or.inr hi)
          by_contra hlt
          exact hnd.2.2 i (List.mem_range'_1.2 ⟨hge', by omega⟩) i hi rfl
      · rename_i hv
        rw [if_neg hv] at hnd ⊢
        simp only [List.flatMap_cons, Option.getD_some, List.nodup_append] at hnd
        congr 1
        apply ih hl _ (by omega) _ hnd.2.1
        intro i hi
        have hge' := hge i (by simp only [List.flatMap_cons, List.mem_append]; exact Or.inr hi)
        by_contra hlt
        exact hnd.2.2 i (List.mem_range'_1.2 ⟨hge', by omega⟩) i hi rfl

theorem seq_flat (sigs : List (BSig ℝ)) : ∀ cc, ((seqIdx sigs cc).flatMap fun o => o.getD []) = List.range' cc (tot sigs) := by
  induction sigs with
  | nil => intro cc; rfl
  | cons s t ih =>
    intro cc
    rw [seqIdx, tot]
    cases s.basis with
    | none => simp [ih]
    | some F => simp [ih, List.range'_append_1]

theorem combine_length (hash : Col ℝ → H) (sigs : List (BSig ℝ)) : ∀ (hl : List H) (cc : Nat),
    ((combineIdx hash sigs hl cc).flatMap fun o => o.getD []).length = tot sigs := by
  induction sigs with
  | nil => intro hl cc; rfl
  | cons s t ih =>
    intro hl cc
    rw [combineIdx, tot]
    cases s.basis with
    | none => simpa using ih hl cc
    | some F =>
      simp only
      split <;> simp only [List.flatMap_cons, Option.getD_some, List.length_append, ih, columns_length,
        List.length_range', Option.map_some]

theorem distinct_seq (hash : Col ℝ → H) (sigs : List LSig) (h : Distinct hash sigs) :
    idxOf hash (sigs.map LSig.b) = seqIdx (sigs.map LSig.b) 0 ∧ width1 hash sigs = tot (sigs.map LSig.b) := by
  have e : idxOf hash (sigs.map LSig.b) = seqIdx (sigs.map LSig.b) 0 := combine_seq hash _ [] 0 (by simp) (by simp) h
  refine ⟨e, ?_⟩
  rw [width1, ncol, List.dedup_eq_self.2 h, idxOf, combine_length]

theorem width1_le (hash : Col ℝ → H) (sigs : List LSig) : width1 hash sigs ≤ tot (sigs.map LSig.b) := by
  rw [← combine_length hash _ [] 0]
  exact (List.dedup_sublist _).length_le

theorem width1_lt (hash : Col ℝ → H) (sigs : List LSig) (h : ¬ Distinct hash sigs) :
    width1 hash sigs < tot (sigs.map LSig.b) := by
  refine lt_of_le_of_ne (width1_le hash sigs) fun e => h ?_
  rw [← combine_length hash _ [] 0] at e
  exact List.dedup_eq_self.1 ((List.dedup_sublist _).eq_of_length e)

/-! ## The loops -/

/-- The labels for consecutive positions. -/
def seqLabels : List LSig → Nat → List (String × List Nat)
  | [], _ => []
  | s :: t, cc =>
    match s.b.basis with
    | none => seqLabels t cc
    | some F => (s.name, List.range' cc F.length) :: seqLabels t (cc + F.length)

theorem seqLabels_positions (sigs : List LSig) : ∀ cc off,
    ((sigs.zip (seqIdx (sigs.map LSig.b) cc)).filterMap fun x => x.2.map fun l => (x.1.name, l.map (off + ·))) =
      seqLabels sigs (off + cc) := by
  induction sigs with
  | nil => intro cc off; rfl
  | cons s t ih =>
    intro cc off
    rw [List.map_cons, seqIdx, seqLabels]
    cases s.b.basis with
    | none => simpa using ih cc off
    | some F => simp [ih, List.map_add_range', Nat.add_assoc]

theorem positions_distinct (hash : Col ℝ → H) (sigs : List LSig) (h : Distinct hash sigs) (off : Nat) :
    positions hash sigs off = seqLabels sigs off := by
  rw [positions, (distinct_seq hash sigs h).1, seqLabels_positions]; rfl

theorem seqLabels_flat (sigs : List LSig) : ∀ cc,
    ((seqLabels sigs cc).flatMap Prod.snd) = List.range' cc (tot (sigs.map LSig.b)) := by
  induction sigs with
  | nil => intro cc; rfl
  | cons s t ih =>
    intro cc
    rw [List.map_cons, seqLabels, tot]
    cases s.b.basis with
    | none => simp [ih]
    | some F => simp [ih, List.range'_append_1]

/-- The loop over the signals of a pulsar. -/
theorem labelLoop_eq (want : Kind → Bool) (len : Nat) (sigs : List LSig) (hs : ∀ s ∈ sigs, Plain s)
    (hw : ∀ s ∈ sigs, want s.kind = wantBoth s.kind) : ∀ ntot,
    labelLoop want len sigs ntot = if ntot + tot (sigs.map LSig.b) ≤ len ∨ tot (sigs.map LSig.b) = 0 ∧ ∀ s ∈ sigs, s.b.basis = none then .ok (seqLabels sigs ntot, ntot + tot (sigs.map LSig.b))
      else .error .indexError := by
  induction sigs with
  | nil => intro ntot; simp [labelLoop, seqLabels, tot]
  | cons s t ih =>
    intro ntot
    have ih := ih (fun s hs' => hs s (by simp [hs'])) (fun s hs' => hw s (by simp [hs']))
    obtain ⟨hk, hl⟩ := hs s (by simp)
    rw [labelLoop, seqLabels, List.map_cons, tot, hw s (by simp)]
    cases hb : s.b.basis with
    | none =>
      rw [if_pos (by rw [hk.2 hb]; rfl), ih]
      simp [hb]
    | some F =>
      have hk' : wantBoth s.kind ≠ false := by
        intro h
        have : s.kind = .other := by
          cases e : s.kind <;> simp [e, wantBoth] at h ⊢
        rw [hk.1 this] at hb
        simp at hb
      rw [if_neg hk', hl F hb]
      simp only [Option.map_some, Option.getD_some]
      have hne : ¬ ∀ s' ∈ s :: t, s'.b.basis = none := fun h => by
        have := h s (by simp); rw [hb] at this; simp at this
      simp only [hne, and_false, or_false]
      split
      · rw [if_neg (by omega)]
      · rw [ih]
        by_cases hle : ntot + (F.length + tot (t.map LSig.b)) ≤ len
        · rw [if_pos (Or.inl (by omega)), if_pos hle]
          simp [Nat.add_assoc]
        · rw [if_neg hle, if_neg]
          rintro (h | ⟨h, -⟩) <;> omega

theorem labelLoop_le (want : Kind → Bool) (len : Nat) (sigs : List LSig) (hs : ∀ s ∈ sigs, Plain s)
    (hw : ∀ s ∈ sigs, want s.kind = wantBoth s.kind) (ntot : Nat) (h : ntot ≤ len) :
    labelLoop want len sigs ntot = if ntot + tot (sigs.map LSig.b) ≤ len then
      .ok (seqLabels sigs ntot, ntot + tot (sigs.map LSig.b)) else .error .indexError := by
  rw [labelLoop_eq want len sigs hs hw]
  by_cases h' : ntot + tot (sigs.map LSig.b) ≤ len
  · rw [if_pos (Or.inl h'), if_pos h']
  · rw [if_neg h', if_neg]
    rintro (h | ⟨h, -⟩)
    · exact h' h
    · omega

theorem labelAll_ok (hash : Col ℝ → H) (len : Nat) (models : List (List LSig))
    (hs : ∀ p ∈ models, ∀ s ∈ p, Plain s) (hd : ∀ p ∈ models, Distinct hash p) : ∀ off,
    off + vecLen hash models ≤ len → labelAll wantBoth len models off = .ok (place hash models off) := by
  induction models with
  | nil => intro off _; rfl
  | cons p t ih =>
    intro off hle
    have hw := (distinct_seq hash p (hd p (by simp))).2
    rw [vecLen, List.map_cons, List.sum_cons] at hle
    rw [labelAll, labelLoop_le wantBoth len p (hs p (by simp)) (fun _ _ => rfl) off (by omega),
      if_pos (by rw [← hw]; omega)]
    simp only
    rw [ih (fun p hp => hs p (by simp [hp])) (fun p hp => hd p (by simp [hp])) _
      (by rw [← hw, vecLen]; omega), place, positions_distinct hash p (hd p (by simp)), hw]

theorem labelAll_error (len : Nat) (models : List (List LSig)) (hs : ∀ p ∈ models, ∀ s ∈ p, Plain s) : ∀ off,
    off ≤ len → len < off + (models.map fun p => tot (p.map LSig.b)).sum →
    labelAll wantBoth len models off = .error .indexError := by
  induction models with
  | nil => intro off h h'; simp at h'; omega
  | cons p t ih =>
    intro off hle hlt
    rw [List.map_cons, List.sum_cons] at hlt
    rw [labelAll, labelLoop_le wantBoth len p (hs p (by simp)) (fun _ _ => rfl) off hle]
    by_cases h' : off + tot (p.map LSig.b) ≤ len
    · rw [if_pos h']
      simp only
      rw [ih (fun p hp => hs p (by simp [hp])) _ h' (by omega)]
    · rw [if_neg h']

theorem place_flat (hash : Col ℝ → H) (models : List (List LSig)) (hd : ∀ p ∈ models, Distinct hash p) : ∀ off,
    (place hash models off).flatMap Prod.snd = List.range' off (vecLen hash models) := by
  induction models with
  | nil => intro off; rfl
  | cons p t ih =>
    intro off
    rw [place, List.flatMap_append, positions_distinct hash p (hd p (by simp)), seqLabels_flat,
      ih fun p hp => hd p (by simp [hp]), ← (distinct_seq hash p (hd p (by simp))).2, List.range'_append_1]
    rfl

/-- C60: if no pulsar's signals share columns, every signal gets the positions of its own columns. -/
theorem C60_labels (hash : Col ℝ → H) (models : List (List LSig)) (hs : ∀ p ∈ models, ∀ s ∈ p, Plain s)
    (hd : ∀ p ∈ models, Distinct hash p) :
    labelAll wantBoth (vecLen hash models) models 0 = .ok (place hash models 0) :=
  labelAll_ok hash _ models hs hd 0 (by simp)

/-- C60: then the slices are disjoint and cover the vector. -/
theorem C60_cover (hash : Col ℝ → H) (models : List (List LSig)) (hd : ∀ p ∈ models, Distinct hash p) :
    ((place hash models 0).flatMap Prod.snd) = List.range (vecLen hash models) := by
  rw [place_flat hash models hd, List.range_eq_range']

/-- C60: otherwise the loop raises `IndexError`. -/
theorem C60_shared (hash : Col ℝ → H) (models : List (List LSig)) (hs : ∀ p ∈ models, ∀ s ∈ p, Plain s)
    (hd : ¬ ∀ p ∈ models, Distinct hash p) :
    labelAll wantBoth (vecLen hash models) models 0 = .error .indexError := by
  apply labelAll_error _ models hs 0 (by omega)
  rw [zero_add]
  clear hs
  push Not at hd
  obtain ⟨p, hp, hd⟩ := hd
  unfold vecLen
  induction models with
  | nil => simp at hp
  | cons q t ih =>
    simp only [List.map_cons, List.sum_cons]
    have hle : (t.map (width1 hash)).sum ≤ (t.map fun p => tot (p.map LSig.b)).sum :=
      List.sum_le_sum fun q _ => width1_le hash q
    rcases List.mem_cons.1 hp with rfl | hp
    · have := width1_lt hash p hd; omega
    · have := ih hp; have := width1_le hash q; omega

/-- C60: the columns of the pulsar's basis at the positions of a signal are the columns of that signal. -/
theorem C60_columns (hash : Col ℝ → H) (sigs : List LSig) (hok : ∀ s ∈ sigs, SigOk s.b) (hd : Distinct hash sigs)
    (hb : ∃ s ∈ sigs, s.b.basis ≠ none) :
    ∃ T, Combine.getBasis hash (sigs.map LSig.b) = .ok (some (width1 hash sigs, T)) ∧
      ∀ x ∈ sigs.zip (idxOf hash (sigs.map LSig.b)), ∀ l, x.2 = some l →
        l.length = x.1.b.basisAt.length ∧ ∀ j i : Nat, l[j]? = some i → some (T i) = x.1.b.basisAt[j]? := by
  have hseq := (distinct_seq hash sigs hd).1
  have hpts : ∀ (sigs : List LSig), (∀ s ∈ sigs, SigOk s.b) → ∀ L0 : List (Col ℝ),
      ∃ L, L0 <+: L ∧ AllPoints L (sigs.map LSig.b) (seqIdx (sigs.map LSig.b) L0.length) := by
    intro sigs
    induction sigs with
    | nil => intro _ L0; exact ⟨L0, List.prefix_rfl, AllPoints.nil⟩
    | cons s t ih =>
      intro hok L0
      rw [List.map_cons, seqIdx]
      cases hb : s.b.basis with
      | none =>
        obtain ⟨L, h1, h2⟩ := ih (fun s hs => hok s (by simp [hs])) L0
        exact ⟨L, h1, AllPoints.none hb h2⟩
      | some F =>
        obtain ⟨-, hlen, -⟩ := hok s (by simp) F hb
        obtain ⟨L, h1, h2⟩ := ih (fun s hs => hok s (by simp [hs])) (L0 ++ s.b.basisAt)
        rw [List.length_append, hlen] at h2
        refine ⟨L, (List.prefix_append L0 _).trans h1, AllPoints.some hb ?_ (List.nodup_range' ..) h2⟩
        rw [← hlen]
        exact (points_range L0 s.b.basisAt).mono h1
  obtain ⟨L, -, hL⟩ := hpts sigs hok []
  rw [List.length_nil, ← hseq] at hL
  have hmem : ∀ o ∈ idxOf hash (sigs.map LSig.b), ∀ l, o = some l → ∀ i ∈ l, i < ncol (idxOf hash (sigs.map LSig.b)) := by
    intro o ho l hl i hi
    rw [mem_iff_lt_ncol]
    exact List.mem_flatMap.2 ⟨o, ho, by rw [hl]; exact hi⟩
  obtain ⟨T, e1, hT⟩ := basisLoop_ok (ncol (idxOf hash (sigs.map LSig.b))) L hL
    (by intro s hs; obtain ⟨s, hs', rfl⟩ := List.mem_map.1 hs; exact hok s hs') hmem fun _ _ => 0
  have hget : ∀ {sigs : List LSig} {ix}, AllPoints L (sigs.map LSig.b) ix → ∀ x ∈ sigs.zip ix, ∀ l, x.2 = some l →
      Points L l x.1.b.basisAt := by
    intro sigs
    induction sigs with
    | nil => intro ix _ x hx; simp at hx
    | cons s t ih =>
      intro ix h x hx l hl
      rw [List.map_cons] at h
      cases h with
      | none hb h =>
        rcases List.mem_cons.1 hx with rfl | hx
        · simp at hl
        · exact ih h x hx l hl
      | some hb hp hn h =>
        rcases List.mem_cons.1 hx with rfl | hx
        · simp only [Option.some.injEq] at hl
          exact hl ▸ hp
        · exact ih h x hx l hl
  have hne : ¬ ∀ o ∈ idxOf hash (sigs.map LSig.b), o = none := by
    rw [hseq]
    obtain ⟨s, hs, hsb⟩ := hb
    have : ∀ (sigs : List LSig) cc, (∀ o ∈ seqIdx (sigs.map LSig.b) cc, o = none) → ∀ s ∈ sigs, s.b.basis = none := by
      intro sigs
      induction sigs with
      | nil => intro cc _ s hs; simp at hs
      | cons s t ih =>
        intro cc h s' hs'
        rw [List.map_cons, seqIdx] at h
        cases hb : s.b.basis with
        | none =>
          rw [hb] at h
          rcases List.mem_cons.1 hs' with rfl | hs'
          · exact hb
          · exact ih cc (fun o ho => h o (by simp [ho])) s' hs'
        | some F =>
          rw [hb] at h
          exact absurd (h _ (List.mem_cons_self ..)) (by simp)
    exact fun h => hsb (this sigs 0 h s hs)
  refine ⟨T, ?_, ?_⟩
  · unfold Combine.getBasis
    simp only
    rw [if_neg hne, e1]; rfl
  · intro x hx l hl
    have hp := hget hL x hx l hl
    refine ⟨hp.1, fun j i hj => ?_⟩
    have hx2 : x.2 ∈ idxOf hash (sigs.map LSig.b) := (List.of_mem_zip hx).2
    have hi : i ∈ l := List.mem_of_getElem? hj
    rw [hT i (Or.inl ⟨x.2, hx2, l, hl, hi⟩)]
    have := hp.2 j i hj
    have hlt : j < x.1.b.basisAt.length := by rw [← hp.1]; exact (List.getElem?_eq_some_iff.1 hj).1
    rw [List.getElem?_eq_getElem hlt] at this ⊢
    rw [List.getD_eq_getElem?_getD, this]; rfl

/-! ## The coefficients -/

/-- The conditional mean of the coefficients of one pulsar. -/
noncomputable def meanOf (q : Known) : Fin q.k → ℝ := (q.A + q.Φ⁻¹)⁻¹ *ᵥ q.b

/-- What is added for a draw. -/
noncomputable def denseDraw (lib : Lib) (q : Known) (z : Option (Nat → ℝ)) : Fin q.k → ℝ :=
  match z with
  | none => 0
  | some z => (lib.dn (q.A + q.Φ⁻¹)).draw fun i => z i

theorem psrSigma_ok (lib : Lib) (q : Known) (hb : q.p.basis ≠ none) :
    psrSigma lib.svd q.oTNr q.oTNT q.p.phi = .ok ⟨q.k, q.A + q.Φ⁻¹, q.b⟩ := by
  rcases q.gp with ⟨h, -, -⟩ | ⟨h, κ, hφ, hs, hΦ⟩
  · exact absurd h hb
  · have e : q.oTNr = some ⟨q.k, q.b⟩ := by rw [Known.oTNr, h]; rfl
    have e' : q.oTNT = some ⟨q.k, q.A⟩ := by rw [Known.oTNT, h]; rfl
    have hp := q.pos
    rw [hΦ] at hp
    obtain ⟨c1, c2, -⟩ := Partition.C82_partial lib.svd κ (kern_pos κ (by rw [hs]; exact hp))
    rw [hs] at c1 c2
    have hsq : asSquare q.k (kernInv lib.svd κ).1 = .ok q.Φ⁻¹ := by rw [asSquare, if_pos c1, c2, hΦ]
    rw [e, e', hφ, psrSigma, dif_pos rfl, hsq]
    rfl

theorem psrCoefs_ok (lib : Lib) (zs : Option (Nat → Nat → ℝ)) (qs : List Known) (hb : ∀ q ∈ qs, q.p.basis ≠ none) : ∀ a,
    psrCoefs lib zs (qs.map Known.p) a =
      .ok ((qs.zipIdx a).map fun x => ⟨x.1.k, meanOf x.1 + denseDraw lib x.1 (zs.map fun z => z x.2)⟩) := by
  induction qs with
  | nil => intro a; rfl
  | cons q t ih =>
    intro a
    have hpos : (q.A + q.Φ⁻¹).PosDef := sigma_posDef q.hN q.hM q.pos q.T
    rw [List.map_cons, psrCoefs, q.TNr_eq, q.TNT_eq]
    simp only [bind, Except.bind, psrSigma_ok lib q (hb q (by simp)), denseCoef, if_pos hpos,
      ih (fun q hq => hb q (by simp [hq])) (a + 1)]
    simp only [List.zipIdx_cons, List.map_cons, pure, Except.pure]
    congr 3

theorem labelled_get (b : Nat → ℝ) (l : List (String × List Nat)) (hn : (l.map Prod.fst).Nodup) (x : String × List Nat)
    (hx : x ∈ l) : (labelled b l).get? (x.1 ++ "_coefficients") = some (x.2.map b) := by
  have hinj : Function.Injective fun s : String => s ++ "_coefficients" := by
    intro s t h
    have h' : (s ++ "_coefficients").toList = (t ++ "_coefficients").toList := congrArg String.toList h
    simp only [String.toList_append, List.append_cancel_right_eq] at h'
    exact String.toList_inj.1 h'
  have hn' : ((l.map fun x => (x.1 ++ "_coefficients", x.2.map b)).map Prod.fst).Nodup := by
    rw [List.map_map]
    have : (Prod.fst ∘ fun x : String × List Nat => (x.1 ++ "_coefficients", x.2.map b)) =
      (fun s : String => s ++ "_coefficients") ∘ Prod.fst := rfl
    rw [this, ← List.map_map]
    exact hn.map hinj
  rw [labelled, Dict.ofList_of_nodup hn']
  exact Dict.get?_of_mem hn' (List.mem_map.2 ⟨x, hx, rfl⟩)

/-- Positions of the coefficients of one pulsar within the vector of all of them. -/
theorem place_own (hash : Col ℝ → H) (f : Nat → ℝ) (l : List ((List LSig) × Σ k, Fin k → ℝ))
    (hk : ∀ x ∈ l, x.2.1 = width1 hash x.1) : ∀ off, (∀ i, f (off + i) = concatOf (l.map Prod.snd) i) →
    ((place hash (l.map Prod.fst) off).map fun x => (x.1, x.2.map f)) =
      l.flatMap fun y => (positions hash y.1 0).map fun x => (x.1, x.2.map (concatOf [y.2])) := by
  induction l with
  | nil => intro off _; rfl
  | cons y t ih =>
    intro off hf
    obtain ⟨sigs, k, c⟩ := y
    have hk0 : k = width1 hash sigs := hk _ (List.mem_cons_self ..)
    rw [List.map_cons, place, List.map_append, List.flatMap_cons]
    congr 1
    · unfold positions
      simp only [List.map_filterMap, Option.map_map]
      apply List.filterMap_congr
      intro x hx
      cases hx2 : x.2 with
      | none => rfl
      | some l =>
        simp only [Option.map_some, Function.comp_def, List.map_map, Option.some.injEq, Prod.mk.injEq, true_and]
        apply List.map_congr_left
        intro i hi
        have hlt : i < k := by
          rw [hk0, width1, mem_iff_lt_ncol]
          exact List.mem_flatMap.2 ⟨x.2, (List.of_mem_zip hx).2, by rw [hx2]; exact hi⟩
        rw [hf, zero_add]
        simp [concatOf, hlt]
    · apply ih fun x hx => hk x (by simp [hx])
      intro i
      rw [Nat.add_assoc, hf, ← hk0]
      simp [concatOf]

/-- The entries of a vector at a list of positions. -/
noncomputable def pick {k : Nat} (c : Fin k → ℝ) (l : List Nat) : List ℝ :=
  l.map fun i => if h : i < k then c ⟨i, h⟩ else 0

theorem pick_concat {k : Nat} (c : Fin k → ℝ) (l : List Nat) : l.map (concatOf [⟨k, c⟩]) = pick c l := rfl

/-- The pulsars of an array with their signals: the number of columns of the basis is that of `get_basis`. -/
structure Array (hash : Col ℝ → H) where
  l : List (List LSig × Known)
  plain : ∀ x ∈ l, ∀ s ∈ x.1, Plain s
  size : ∀ x ∈ l, x.2.k = width1 hash x.1
  basis : ∀ x ∈ l, x.2.p.basis ≠ none
  names : ((place hash (l.map Prod.fst) 0).map Prod.fst).Nodup

/-- C60: without common signals, `ConditionalGP` returns for every signal of every pulsar the entries of that
pulsar's vector (conditional mean, plus the draw) at the positions of that signal's columns. -/
theorem C60_pulsars (lib : Lib) (method : Method) (hm : method ≠ .other) (hash : Col ℝ → H) (A : Array hash)
    (hd : ∀ x ∈ A.l, Distinct hash x.1) (zs : Option (Nat → Nat → ℝ)) :
    ∃ d, condCoefficients lib method ((A.l.map Prod.snd).map Known.p) [] (A.l.map Prod.fst) zs = .ok d ∧
      ∀ a y, (A.l)[a]? = some y → ∀ x ∈ positions hash y.1 0, d.get? (x.1 ++ "_coefficients") =
        some (pick (meanOf y.2 + denseDraw lib y.2 (zs.map fun z => z a)) x.2) := by
  have hps := psrCoefs_ok lib zs (A.l.map Prod.snd) (by
    intro q hq
    obtain ⟨x, hx, rfl⟩ := List.mem_map.1 hq
    exact A.basis x hx) 0
  set cs := (((A.l.map Prod.snd).zipIdx 0).map fun x =>
    (⟨x.1.k, meanOf x.1 + denseDraw lib x.1 (zs.map fun z => z x.2)⟩ : Σ k, Fin k → ℝ)) with hcs
  have hlen : (cs.map Sigma.fst).sum = vecLen hash (A.l.map Prod.fst) := by
    have h1 : ∀ (l : List (List LSig × Known)) (a : Nat), (∀ x ∈ l, x.2.k = width1 hash x.1) →
        ((((l.map Prod.snd).zipIdx a).map fun x =>
          (⟨x.1.k, meanOf x.1 + denseDraw lib x.1 (zs.map fun z => z x.2)⟩ : Σ k, Fin k → ℝ)).map Sigma.fst).sum =
        vecLen hash (l.map Prod.fst) := by
      intro l
      induction l with
      | nil => intro a _; rfl
      | cons x t ih =>
        intro a h
        simp only [List.map_cons, List.zipIdx_cons, List.sum_cons, vecLen]
        rw [ih (a + 1) fun x hx => h x (by simp [hx]), h x (by simp)]
        rfl
    exact h1 A.l 0 A.size
  have hlab := C60_labels hash (A.l.map Prod.fst) (by
    intro p hp
    obtain ⟨x, hx, rfl⟩ := List.mem_map.1 hp
    exact A.plain x hx) (by
    intro p hp
    obtain ⟨x, hx, rfl⟩ := List.mem_map.1 hp
    exact hd x hx)
  have hv : condVector lib method ((A.l.map Prod.snd).map Known.p) [] zs =
      .ok ((cs.map Sigma.fst).sum, concatOf cs) := by
    cases method with
    | other => exact absurd rfl hm
    | _ => simp only [condVector, hps]
  refine ⟨labelled (concatOf cs) (place hash (A.l.map Prod.fst) 0), ?_, ?_⟩
  · unfold condCoefficients
    rw [hv]
    simp only [bind, Except.bind]
    rw [hlen, hlab]
    rfl
  · intro a y hy x hx
    have hown := place_own hash (concatOf cs) ((A.l.map Prod.fst).zip cs) (by
      intro x hx
      obtain ⟨i, hi, rfl⟩ := List.getElem_of_mem hx
      simp only [List.getElem_zip, hcs, List.getElem_map, List.getElem_zipIdx]
      exact A.size _ (List.getElem_mem _)) 0 (by
      intro i
      rw [zero_add, List.map_snd_zip (by simp [hcs])])
    rw [List.map_fst_zip (by simp [hcs])] at hown
    have hmem : (x.1, x.2.map (concatOf [⟨y.2.k, meanOf y.2 + denseDraw lib y.2 (zs.map fun z => z a)⟩])) ∈
        ((A.l.map Prod.fst).zip cs).flatMap fun y => (positions hash y.1 0).map fun x => (x.1, x.2.map (concatOf [y.2])) := by
      rw [List.mem_flatMap]
      obtain ⟨ha, rfl⟩ := List.getElem?_eq_some_iff.1 hy
      refine ⟨((A.l)[a].1, ⟨(A.l)[a].2.k, meanOf (A.l)[a].2 + denseDraw lib (A.l)[a].2 (zs.map fun z => z a)⟩), ?_,
        List.mem_map.2 ⟨x, hx, rfl⟩⟩
      apply List.mem_iff_getElem.2
      refine ⟨a, by simpa [hcs] using ha, ?_⟩
      simp only [List.getElem_zip, hcs, List.getElem_map, List.getElem_zipIdx, Nat.zero_add]
      have e : ((A.l.map Prod.snd).zipIdx[a]'(by simpa using ha)).1 = (A.l)[a].2 := by simp
      rw [e]
    rw [← hown] at hmem
    obtain ⟨x', hx', e⟩ := List.mem_map.1 hmem
    simp only [Prod.mk.injEq] at e
    have := labelled_get (concatOf cs) _ A.names x' hx'
    rw [← e.1, this, e.2, pick_concat]

/-! ## With common signals -/

/-- The precision of all the coefficients, given the prior covariance `F`. -/
noncomputable def jointPost (qs : List Known) (F : Nat → Nat → ℝ) : Matrix (Fin (width qs)) (Fin (width qs)) ℝ :=
  jm Known.k Known.k Known.A qs + (toMatrix (width qs) F)⁻¹

/-- Their conditional mean. -/
noncomputable def jointMean (qs : List Known) (F : Nat → Nat → ℝ) : Fin (width qs) → ℝ :=
  (jointPost qs F)⁻¹ *ᵥ jv Known.k Known.b qs

theorem joint_A (qs : List Known) : (jm (fun q : Known => q.p.n) Known.k (fun q => q.T) qs)ᵀ *
      (projN (jm (fun q : Known => q.p.n) (fun q => q.p.n) (fun q => q.N) qs) (jointM qs) *
        jm (fun q : Known => q.p.n) Known.k (fun q => q.T) qs) = jm Known.k Known.k Known.A qs := by
  rw [projN_jm, jm_transpose, jm_mul, jm_mul]; rfl

theorem joint_b (qs : List Known) : (jm (fun q : Known => q.p.n) Known.k (fun q => q.T) qs)ᵀ *ᵥ
      (projN (jm (fun q : Known => q.p.n) (fun q => q.p.n) (fun q => q.N) qs) (jointM qs) *ᵥ jointR qs) =
        jv Known.k Known.b qs := by
  rw [projN_jm, jointR, jm_transpose, jm_mulVec, jm_mulVec]; rfl

/-- The mean is that of the coefficients of a Gaussian with the joint covariance of C57. -/
theorem jointMean_eq (qs : List Known) (F : Nat → Nat → ℝ) (hF : (toMatrix (width qs) F).PosDef) :
    jointMean qs F = toMatrix (width qs) F *ᵥ ((jm (fun q : Known => q.p.n) Known.k (fun q => q.T) qs)ᵀ *ᵥ
      (projN (jointCov qs (toMatrix (width qs) F)) (jointM qs) *ᵥ jointR qs)) := by
  have hJN : (jm (fun q : Known => q.p.n) (fun q => q.p.n) (fun q => q.N) qs).PosDef :=
    jm_posDef _ _ fun q _ => q.hN
  have hJM : Function.Injective (jointM qs).mulVec := jm_injective _ _ fun q _ => q.hM
  have h := mean_full hJN hJM hF (jm (fun q : Known => q.p.n) Known.k (fun q => q.T) qs)
  unfold jointMean jointPost
  rw [← joint_A, ← joint_b, mulVec_mulVec, mulVec_mulVec, Matrix.mul_assoc, h, mulVec_mulVec, mulVec_mulVec,
    Matrix.mul_assoc _ _ (projN _ _)]
  rfl

theorem jointPost_posDef (qs : List Known) (F : Nat → Nat → ℝ) (hF : (toMatrix (width qs) F).PosDef) :
    (jointPost qs F).PosDef := by
  have hJN : (jm (fun q : Known => q.p.n) (fun q => q.p.n) (fun q => q.N) qs).PosDef :=
    jm_posDef _ _ fun q _ => q.hN
  have hJM : Function.Injective (jointM qs).mulVec := jm_injective _ _ fun q _ => q.hM
  have h := sigma_posDef hJN hJM hF (jm (fun q : Known => q.p.n) Known.k (fun q => q.T) qs)
  rwa [joint_A] at h

theorem bigSigma_ok (qs : List Known) (hb : ∀ q ∈ qs, q.p.basis ≠ none) (F : Nat → Nat → ℝ) {β : Type}
    (g : ∀ d, Matrix (Fin d) (Fin d) ℝ × (Fin d → ℝ) → Except PyErr β) (d : Nat) (hd : d = width qs) :
    (bigSigma (qs.map Known.oTNr) (qs.map Known.oTNT) (toMatrix d F)⁻¹ >>= g d) =
      g (width qs) (jointPost qs F, jv Known.k Known.b qs) := by
  subst hd
  have hbs : ∀ q ∈ qs, q.p.basis = some ⟨q.k, q.T⟩ := by
    intro q hq
    rcases q.gp with ⟨h, -⟩ | ⟨h, κ, h1, h2, -⟩
    · exact absurd h (hb q hq)
    · exact h
  have hT : qs.map Known.oTNr = qs.map fun q => some (⟨q.k, q.b⟩ : Σ k, Fin k → ℝ) :=
    List.map_congr_left fun q hq => by rw [Known.oTNr, hbs q hq]; rfl
  have hA : qs.map Known.oTNT = qs.map fun q => some (⟨q.k, q.A⟩ : Σ k, Matrix (Fin k) (Fin k) ℝ) :=
    List.map_congr_left fun q hq => by rw [Known.oTNT, hbs q hq]; rfl
  have e1 := blockDiagOf_jm Known.k Known.A qs
  have e2 := concatOf_jv Known.k Known.b qs
  have : bigSigma (qs.map Known.oTNr) (qs.map Known.oTNT) (toMatrix (width qs) F)⁻¹ =
      .ok (jointPost qs F, jv Known.k Known.b qs) := by
    rw [hT, hA, bigSigma, allSome_map, allSome_map]
    simp only [List.map_map, Function.comp_def]
    rw [if_pos (by simp), jointPost, ← e1, ← e2]
  rw [this]
  rfl

/-- What is added for a draw. -/
noncomputable def sparseDraw (lib : Lib) (qs : List Known) (F : Nat → Nat → ℝ) (z : Option (Nat → ℝ)) :
    Fin (width qs) → ℝ :=
  match z with
  | none => 0
  | some z => (lib.sp (jointPost qs F)).draw fun i => z i

theorem condVector_common (lib : Lib) (method : Method) (qs : List Known) (hb : ∀ q ∈ qs, q.p.basis ≠ none)
    (cs : List (Klass ℝ)) (h0 : cs ≠ []) (F : Nat → Nat → ℝ) (hF : (toMatrix (width qs) F).PosDef)
    (hinv : bigPhiinv0 lib (phisOf qs) cs method = .ok (toMatrix (PtaPhi.total (phisOf qs)) F)⁻¹)
    (zs : Option (Nat → Nat → ℝ)) :
    condVector lib method (qs.map Known.p) cs zs =
      .ok (width qs, concatOf [⟨width qs, jointMean qs F + sparseDraw lib qs F (zs.map fun z => z 0)⟩]) := by
  have h1 := mapM_ok Known.p PsrEval.TNr Known.oTNr qs fun q _ => q.TNr_eq
  have h2 := mapM_ok Known.p PsrEval.TNT Known.oTNT qs fun q _ => q.TNT_eq
  have h := bigSigma_ok qs hb F (fun d x => do
    let c ← sparseCoef lib x.1 x.2 (zs.map fun z => z 0)
    return (d, concatOf [⟨d, c⟩])) _ (total_width qs)
  cases cs with
  | nil => exact absurd rfl h0
  | cons c t =>
    simp only [condVector, h1, h2, hinv]
    refine Eq.trans ?_ (h.trans ?_)
    · rfl
    · simp only [sparseCoef, if_pos (jointPost_posDef qs F hF)]
      rfl

/-- Every method inverts the prior covariance for one class of common signals (C49, C50). -/
theorem one_class_inv (lib : Lib) (phis : List (Option (Kern ℝ))) (c : Klass ℝ) (h2 : 2 ≤ c.items.length)
    (hd : ∀ x, some x ∈ phis → ∃ n v, x = .one n v) (hk : PtaPhi.KlassOk (PtaPhi.slices phis 0) c)
    (hv : PhiInv.VecKlass c) (hp : ∀ it ∈ c.items, it.psr < phis.length)
    (hdist : c.items.Pairwise fun x y => x.psr ≠ y.psr) :
    ∃ F, PtaPhi.getPhi phis [c] = .ok (.big (PtaPhi.total phis) F) ∧
      ((toMatrix (PtaPhi.total phis) F).PosDef → ∀ method, method ≠ .other →
        bigPhiinv0 lib phis [c] method = .ok (toMatrix (PtaPhi.total phis) F)⁻¹) := by
  obtain ⟨F, e, h⟩ := PhiInv.C49_one_class phis c h2 hd hk hv hp hdist
  obtain ⟨F', e', h'⟩ := Partition.C50_partial lib.svd false phis c h2 hd hk hv hp hdist
  rw [e] at e'
  obtain rfl : F = F' := by simpa using e'
  refine ⟨F, e, fun hF method hm => ?_⟩
  cases method with
  | cliques =>
    show (bigPhiinv lib.svd phis [c] .cliques).map Prod.fst = _
    rw [bigPhiinv, h hF.det_pos.ne']; rfl
  | partition =>
    obtain ⟨R, eR, hR⟩ := h' hF
    simp only [bigPhiinv0, eR, if_true, hR]
  | sparse =>
    show (bigPhiinv lib.svd phis [c] .sparse).map Prod.fst = _
    rw [sparse_inv lib.svd _ _ F e hF]; rfl
  | other => exact absurd rfl hm

/-- C60: with common signals, `ConditionalGP` returns for every signal of every pulsar the entries of the
vector of all the coefficients (conditional mean, plus the draw) at the positions of that signal's columns. -/
theorem C60_common (lib : Lib) (method : Method) (hash : Col ℝ → H) (A : Array hash)
    (hd : ∀ x ∈ A.l, Distinct hash x.1) (cs : List (Klass ℝ)) (h0 : cs ≠ []) (F : Nat → Nat → ℝ)
    (hF : (toMatrix (width (A.l.map Prod.snd)) F).PosDef)
    (hinv : bigPhiinv0 lib (phisOf (A.l.map Prod.snd)) cs method =
      .ok (toMatrix (PtaPhi.total (phisOf (A.l.map Prod.snd))) F)⁻¹) (zs : Option (Nat → Nat → ℝ)) :
    ∃ d, condCoefficients lib method ((A.l.map Prod.snd).map Known.p) cs (A.l.map Prod.fst) zs = .ok d ∧
      ∀ x ∈ place hash (A.l.map Prod.fst) 0, d.get? (x.1 ++ "_coefficients") =
        some (pick (jointMean (A.l.map Prod.snd) F +
          sparseDraw lib (A.l.map Prod.snd) F (zs.map fun z => z 0)) x.2) := by
  have hv := condVector_common lib method (A.l.map Prod.snd) (by
    intro q hq
    obtain ⟨x, hx, rfl⟩ := List.mem_map.1 hq
    exact A.basis x hx) cs h0 F hF hinv zs
  have hlen : width (A.l.map Prod.snd) = vecLen hash (A.l.map Prod.fst) := by
    unfold width vecLen
    rw [List.map_map, List.map_map]
    congr 1
    exact List.map_congr_left fun x hx => A.size x hx
  have hlab := C60_labels hash (A.l.map Prod.fst) (by
    intro p hp
    obtain ⟨x, hx, rfl⟩ := List.mem_map.1 hp
    exact A.plain x hx) (by
    intro p hp
    obtain ⟨x, hx, rfl⟩ := List.mem_map.1 hp
    exact hd x hx)
  rw [← hlen] at hlab
  refine ⟨labelled (concatOf [⟨width (A.l.map Prod.snd), jointMean (A.l.map Prod.snd) F +
    sparseDraw lib (A.l.map Prod.snd) F (zs.map fun z => z 0)⟩]) (place hash (A.l.map Prod.fst) 0), ?_, fun x hx => ?_⟩
  · unfold condCoefficients
    rw [hv]
    simp only [bind, Except.bind]
    rw [hlab]
    rfl
  · rw [labelled_get _ _ A.names x hx, pick_concat]

/-! ## Failures of `ConditionalGP` -/

/-- Bases of fixed width, and only on signals of the right types. -/
def Fixed (s : LSig) : Prop :=
  (s.kind = .other → s.b.basis = none) ∧ ∀ F, s.b.basis = some F → s.b.basisAt.length = F.length

theorem labelLoop_coef (len : Nat) (sigs : List LSig) (hs : ∀ s ∈ sigs, Fixed s) : ∀ ntot,
    ntot + tot (sigs.map LSig.b) ≤ len → (∃ s ∈ sigs, s.kind ≠ .other ∧ s.b.basis = none) →
    labelLoop wantBoth len sigs ntot = .error .attributeError := by
  induction sigs with
  | nil => intro ntot _ h; simp at h
  | cons s t ih =>
    intro ntot hle hex
    rw [List.map_cons, tot] at hle
    rw [labelLoop]
    by_cases hk : s.kind = .other
    · have hb := (hs s (by simp)).1 hk
      rw [if_pos (by rw [hk]; rfl)]
      apply ih (fun s hs' => hs s (by simp [hs'])) ntot (by omega)
      obtain ⟨s', hs', h1, h2⟩ := hex
      rcases List.mem_cons.1 hs' with rfl | hs'
      · exact absurd hk h1
      · exact ⟨s', hs', h1, h2⟩
    · rw [if_neg (by cases e : s.kind <;> simp_all [wantBoth])]
      cases hb : s.b.basis with
      | none => rfl
      | some F =>
        have hl := (hs s (by simp)).2 F hb
        rw [hb] at hle
        simp only [Option.map_some, Option.getD_some] at hle
        simp only [hl]
        rw [if_neg (by omega), ih (fun s hs' => hs s (by simp [hs'])) _ (by omega)]
        obtain ⟨s', hs', h1, h2⟩ := hex
        rcases List.mem_cons.1 hs' with rfl | hs'
        · rw [hb] at h2; simp at h2
        · exact ⟨s', hs', h1, h2⟩

/-- C60 fails for models with a process in coefficient mode: such a signal has type "basis" and no basis, and
asking for the shape of `None` raises. -/
theorem C60_coefficient_mode_false (hash : Col ℝ → H) (models : List (List LSig)) (hs : ∀ p ∈ models, ∀ s ∈ p, Fixed s)
    (hd : ∀ p ∈ models, Distinct hash p) (hc : ∃ p ∈ models, ∃ s ∈ p, s.kind ≠ .other ∧ s.b.basis = none) :
    labelAll wantBoth (vecLen hash models) models 0 = .error .attributeError := by
  have gen : ∀ (models : List (List LSig)) (len off : Nat), (∀ p ∈ models, ∀ s ∈ p, Fixed s) →
      (∀ p ∈ models, Distinct hash p) → (∃ p ∈ models, ∃ s ∈ p, s.kind ≠ .other ∧ s.b.basis = none) →
      off + vecLen hash models ≤ len → labelAll wantBoth len models off = .error .attributeError := by
    intro models
    induction models with
    | nil => intro len off _ _ h; simp at h
    | cons p t ih =>
      intro len off hs hd hc hle
      have hw := (distinct_seq hash p (hd p (by simp))).2
      rw [vecLen, List.map_cons, List.sum_cons, hw] at hle
      rw [labelAll]
      by_cases hp : ∃ s ∈ p, s.kind ≠ .other ∧ s.b.basis = none
      · rw [labelLoop_coef len p (hs p (by simp)) off (by omega) hp]
      · have hpl : ∀ s ∈ p, Plain s := by
          intro s hsp
          refine ⟨⟨(hs p (by simp) s hsp).1, fun hb => ?_⟩, (hs p (by simp) s hsp).2⟩
          by_contra hk
          exact hp ⟨s, hsp, hk, hb⟩
        rw [labelLoop_le wantBoth len p hpl (fun _ _ => rfl) off (by omega), if_pos (by omega)]
        simp only
        rw [ih len _ (fun p hp => hs p (by simp [hp])) (fun p hp => hd p (by simp [hp])) ?_ (by rw [vecLen]; omega)]
        obtain ⟨p', hp', h⟩ := hc
        rcases List.mem_cons.1 hp' with rfl | hp'
        · exact absurd h hp
        · exact ⟨p', hp', h⟩
  exact gen models _ 0 hs hd hc (by simp)

/-- C60 fails for an array with a pulsar without Gaussian processes. -/
theorem C60_no_basis_false (lib : Lib) (method : Method) (hm : method ≠ .other) (qs : List Known) (sigs : List (List LSig))
    (h : ∃ q ∈ qs, q.p.basis = none) (zs : Option (Nat → Nat → ℝ)) :
    condCoefficients lib method (qs.map Known.p) [] sigs zs = .error .attributeError := by
  have gen : ∀ (qs : List Known) a, (∃ q ∈ qs, q.p.basis = none) →
      psrCoefs lib zs (qs.map Known.p) a = .error .attributeError := by
    intro qs
    induction qs with
    | nil => intro a h; simp at h
    | cons q t ih =>
      intro a h
      rw [List.map_cons, psrCoefs, q.TNr_eq, q.TNT_eq]
      by_cases hq : q.p.basis = none
      · rcases q.gp with ⟨-, hφ, -⟩ | ⟨hb, -⟩
        · simp only [bind, Except.bind, hφ, psrSigma]
        · rw [hq] at hb; simp at hb
      · have hpos : (q.A + q.Φ⁻¹).PosDef := sigma_posDef q.hN q.hM q.pos q.T
        simp only [bind, Except.bind, psrSigma_ok lib q hq, denseCoef, if_pos hpos]
        rw [ih]
        obtain ⟨q', hq', h'⟩ := h
        rcases List.mem_cons.1 hq' with rfl | hq'
        · exact absurd h' hq
        · exact ⟨q', hq', h'⟩
  unfold condCoefficients condVector
  cases method with
  | other => exact absurd rfl hm
  | _ => simp only [gen qs 0 h]; rfl

/-! ## `get_coefficients` -/

/-- What is added for a draw. -/
noncomputable def commonDraw (lib : Lib) (sparse : Bool) (qs : List Known) (F : Nat → Nat → ℝ) (z : Option (Nat → ℝ)) :
    Fin (width qs) → ℝ :=
  match z with
  | none => 0
  | some z => if sparse then (lib.sp (jointPost qs F)).drawL fun i => z i else svdDraw (lib.svd (jointPost qs F)) fun i => z i

/-- C59: with common signals `get_coefficients` labels as `ConditionalGP` does, and its mean is the same. -/
theorem C59_common (lib : Lib) (method : Method) (sparse : Bool) (hash : Col ℝ → H) (A : Array hash)
    (hd : ∀ x ∈ A.l, Distinct hash x.1) (cs : List (Klass ℝ)) (h0 : cs ≠ []) (F : Nat → Nat → ℝ)
    (hF : (toMatrix (width (A.l.map Prod.snd)) F).PosDef)
    (hinv : bigPhiinv0 lib (phisOf (A.l.map Prod.snd)) cs method =
      .ok (toMatrix (PtaPhi.total (phisOf (A.l.map Prod.snd))) F)⁻¹) (zs : Option (Nat → Nat → ℝ)) :
    ∃ d, getCoefficients lib method sparse ((A.l.map Prod.snd).map Known.p) cs (A.l.map Prod.fst) zs = .ok d ∧
      ∀ x ∈ place hash (A.l.map Prod.fst) 0, d.get? (x.1 ++ "_coefficients") =
        some (pick (jointMean (A.l.map Prod.snd) F +
          commonDraw lib sparse (A.l.map Prod.snd) F (zs.map fun z => z 0)) x.2) := by
  have hlen : width (A.l.map Prod.snd) = vecLen hash (A.l.map Prod.fst) := by
    unfold width vecLen
    rw [List.map_map, List.map_map]
    congr 1
    exact List.map_congr_left fun x hx => A.size x hx
  have hlab := C60_labels hash (A.l.map Prod.fst) (by
    intro p hp
    obtain ⟨x, hx, rfl⟩ := List.mem_map.1 hp
    exact A.plain x hx) (by
    intro p hp
    obtain ⟨x, hx, rfl⟩ := List.mem_map.1 hp
    exact hd x hx)
  rw [← hlen] at hlab
  have hb : ∀ q ∈ A.l.map Prod.snd, q.p.basis ≠ none := by
    intro q hq
    obtain ⟨x, hx, rfl⟩ := List.mem_map.1 hq
    exact A.basis x hx
  set qs := A.l.map Prod.snd with hqs
  have h1 := mapM_ok Known.p PsrEval.TNr Known.oTNr qs fun q _ => q.TNr_eq
  have h2 := mapM_ok Known.p PsrEval.TNT Known.oTNT qs fun q _ => q.TNT_eq
  have h := bigSigma_ok qs hb F (fun d x => do
    let c ← if sparse then sparseCoef' lib x.1 x.2 (zs.map fun z => z 0) else svdCoef lib x.1 x.2 (zs.map fun z => z 0)
    let l ← labelAll wantBoth d (A.l.map Prod.fst) 0
    return labelled (concatOf [⟨d, c⟩]) l) _ (total_width qs)
  have hpos := jointPost_posDef qs F hF
  refine ⟨labelled (concatOf [⟨width qs, jointMean qs F + commonDraw lib sparse qs F (zs.map fun z => z 0)⟩])
    (place hash (A.l.map Prod.fst) 0), ?_, fun x hx => ?_⟩
  · cases cs with
    | nil => exact absurd rfl h0
    | cons c t =>
      simp only [getCoefficients, getCommon, h1, h2, hinv]
      refine Eq.trans ?_ (h.trans ?_)
      · rfl
      · cases sparse with
        | true =>
          simp only [if_true, sparseCoef', if_pos hpos, bind, Except.bind, hlab]
          rfl
        | false =>
          simp only [Bool.false_eq_true, if_false, svdCoef, svdMean_eq hpos, bind, Except.bind, hlab]
          rfl
  · rw [labelled_get _ _ A.names x hx, pick_concat]

/-- What is added for a draw. -/
noncomputable def svdDrawOf (lib : Lib) (q : Known) (z : Option (Nat → ℝ)) : Fin q.k → ℝ :=
  match z with
  | none => 0
  | some z => svdDraw (lib.svd (q.A + q.Φ⁻¹)) fun i => z i

theorem positions_names (hash : Col ℝ → H) (sigs : List LSig) (off : Nat) :
    (positions hash sigs off).map Prod.fst = (positions hash sigs 0).map Prod.fst := by
  simp only [positions, List.map_filterMap, Option.map_map, Function.comp_def]

theorem place_names (hash : Col ℝ → H) (models : List (List LSig)) : ∀ off,
    (place hash models off).map Prod.fst = models.flatMap fun p => (positions hash p 0).map Prod.fst := by
  induction models with
  | nil => intro off; rfl
  | cons p t ih => intro off; rw [place, List.map_append, ih, positions_names, List.flatMap_cons]

theorem coef_inj {s t : String} (h : s ++ "_coefficients" = t ++ "_coefficients") : s = t := by
  have h' : (s ++ "_coefficients").toList = (t ++ "_coefficients").toList := congrArg String.toList h
  simp only [String.toList_append, List.append_cancel_right_eq] at h'
  exact String.toList_inj.1 h'

theorem labelled_keys (b : Nat → ℝ) (l : List (String × List Nat)) (hn : (l.map Prod.fst).Nodup) :
    ((labelled b l).map Prod.fst) = l.map (fun x => x.1 ++ "_coefficients") ∧
      ((labelled b l).map Prod.fst).Nodup := by
  have e : ((l.map fun x => (x.1 ++ "_coefficients", x.2.map b)).map Prod.fst) =
      l.map (fun x => x.1 ++ "_coefficients") := by rw [List.map_map]; rfl
  have hn' : ((l.map fun x => (x.1 ++ "_coefficients", x.2.map b)).map Prod.fst).Nodup := by
    rw [e]
    have : (fun x : String × List Nat => x.1 ++ "_coefficients") =
      (fun s : String => s ++ "_coefficients") ∘ Prod.fst := rfl
    rw [this, ← List.map_map]
    exact hn.map fun s t h => coef_inj h
  rw [labelled, Dict.ofList_of_nodup hn']
  exact ⟨e, hn'⟩

/-- C59 (partial): without common signals, in a model none of whose signals is of type "common basis",
`get_coefficients` returns for every signal of every pulsar the entries of that pulsar's vector (conditional
mean, plus the draw) at the positions of that signal's columns. Missing: common-type signals in an array
without common signals, for which it fails (`C59_common_type_false`). -/
theorem C59_partial (lib : Lib) (method : Method) (hm : method ≠ .other) (sparse : Bool) (hash : Col ℝ → H) (A : Array hash)
    (hd : ∀ x ∈ A.l, Distinct hash x.1) (hk : ∀ x ∈ A.l, ∀ s ∈ x.1, s.kind ≠ .commonBasis)
    (zs : Option (Nat → Nat → ℝ)) :
    ∃ d, getCoefficients lib method sparse ((A.l.map Prod.snd).map Known.p) [] (A.l.map Prod.fst) zs = .ok d ∧
      ∀ a y, (A.l)[a]? = some y → ∀ x ∈ positions hash y.1 0, d.get? (x.1 ++ "_coefficients") =
        some (pick (meanOf y.2 + svdDrawOf lib y.2 (zs.map fun z => z a)) x.2) := by
  have gen : ∀ (l : List (List LSig × Known)) (a0 : Nat) (d0 : Dict String (List ℝ)),
      (∀ x ∈ l, ∀ s ∈ x.1, Plain s) → (∀ x ∈ l, x.2.k = width1 hash x.1) → (∀ x ∈ l, x.2.p.basis ≠ none) →
      (∀ x ∈ l, Distinct hash x.1) → (∀ x ∈ l, ∀ s ∈ x.1, s.kind ≠ .commonBasis) →
      ((place hash (l.map Prod.fst) 0).map Prod.fst).Nodup →
      ∃ d, getLoop lib zs (((l.map Prod.snd).map Known.p).zip (l.map Prod.fst)) a0 d0 = .ok d ∧
        (∀ k, k ∉ (place hash (l.map Prod.fst) 0).map Prod.fst →
          d.get? (k ++ "_coefficients") = d0.get? (k ++ "_coefficients")) ∧
        ∀ a y, l[a]? = some y → ∀ x ∈ positions hash y.1 0, d.get? (x.1 ++ "_coefficients") =
          some (pick (meanOf y.2 + svdDrawOf lib y.2 (zs.map fun z => z (a0 + a))) x.2) := by
    intro l
    induction l with
    | nil => intro a0 d0 _ _ _ _ _ _; exact ⟨d0, rfl, fun _ _ => rfl, fun a y h => by simp at h⟩
    | cons y t ih =>
      intro a0 d0 hp hsz hb hd hk hn
      obtain ⟨sigs, q⟩ := y
      have hpos : (q.A + q.Φ⁻¹).PosDef := sigma_posDef q.hN q.hM q.pos q.T
      have hs0 : q.k = width1 hash sigs := hsz (sigs, q) (by simp)
      have hd0 : Distinct hash sigs := hd (sigs, q) (by simp)
      have hw := (distinct_seq hash sigs hd0).2
      have hlab : labelLoop wantBasis q.k sigs 0 = .ok (positions hash sigs 0, 0 + tot (sigs.map LSig.b)) := by
        rw [labelLoop_le wantBasis q.k sigs (hp (sigs, q) (by simp)) ?_ 0 (by omega), if_pos (by rw [hs0, hw]; omega),
          positions_distinct hash sigs hd0]
        intro s hs
        have := hk (sigs, q) (by simp) s hs
        cases e : s.kind <;> simp_all [wantBasis, wantBoth]
      rw [place_names, List.map_cons, List.flatMap_cons, List.nodup_append, ← place_names hash (t.map Prod.fst) 0] at hn
      obtain ⟨hn1, hn2, hn3⟩ := hn
      set c := meanOf q + svdDrawOf lib q (zs.map fun z => z a0) with hc
      obtain ⟨d, e, hd1, hd2⟩ := ih (a0 + 1) (d0.update (labelled (concatOf [⟨q.k, c⟩]) (positions hash sigs 0)))
        (fun x hx => hp x (by simp [hx])) (fun x hx => hsz x (by simp [hx])) (fun x hx => hb x (by simp [hx]))
        (fun x hx => hd x (by simp [hx])) (fun x hx => hk x (by simp [hx])) hn2
      have hkeys := labelled_keys (concatOf [⟨q.k, c⟩]) (positions hash sigs 0) hn1
      refine ⟨d, ?_, ?_, ?_⟩
      · simp only [List.map_cons, List.zip_cons_cons]
        rw [getLoop, q.TNr_eq, q.TNT_eq]
        simp only [bind, Except.bind, psrSigma_ok lib q (hb (sigs, q) (by simp)), svdCoef, svdMean_eq hpos, hlab]
        exact e
      · intro k hk
        rw [place_names, List.map_cons, List.flatMap_cons, List.mem_append, ← place_names hash (t.map Prod.fst) 0] at hk
        push Not at hk
        rw [hd1 k hk.2, Dict.get?_update_of_nodup _ _ hkeys.2]
        have : (labelled (concatOf [⟨q.k, c⟩]) (positions hash sigs 0)).get? (k ++ "_coefficients") = none := by
          rw [Dict.get?_eq_none_iff, hkeys.1]
          intro h
          obtain ⟨x, hx, e⟩ := List.mem_map.1 h
          exact hk.1 (List.mem_map.2 ⟨x, hx, coef_inj e⟩)
        rw [this]; rfl
      · intro a y hy x hx
        cases a with
        | zero =>
          simp only [List.getElem?_cons_zero, Option.some.injEq] at hy
          subst hy
          have hx1 : x.1 ∈ (positions hash sigs 0).map Prod.fst := List.mem_map.2 ⟨x, hx, rfl⟩
          rw [hd1 x.1 fun h => hn3 x.1 hx1 x.1 h rfl, Dict.get?_update_of_nodup _ _ hkeys.2,
            labelled_get _ _ hn1 x hx, pick_concat]
          rfl
        | succ a =>
          have := hd2 a y (by simpa using hy) x hx
          rwa [show a0 + 1 + a = a0 + (a + 1) by omega] at this
  obtain ⟨d, e, -, h⟩ := gen A.l 0 [] A.plain A.size A.basis hd hk A.names
  refine ⟨d, ?_, ?_⟩
  · unfold getCoefficients
    cases method with
    | other => exact absurd rfl hm
    | _ => exact e
  · intro a y hy x hx
    have := h a y hy x hx
    rwa [Nat.zero_add] at this

/-! ## Cases -/

/-- A pulsar with two TOAs of variance 1 and two processes, one for each. -/
noncomputable def twoPsr : PsrEval where
  n := 2
  res := ![1, 2]
  delays := []
  noise := [some (.base (.arr fun _ => 1))]
  basis := some ⟨2, 1⟩
  phi := some (.one 2 fun _ => 1)
  logprior := []

noncomputable def two : Known where
  p := twoPsr
  m := 0
  k := 2
  N := diagonal fun _ => 1
  M := of fun _ j => j.elim0
  T := (1 : Matrix (Fin 2) (Fin 2) ℝ)
  Φ := diagonal fun _ => 1
  noise := ⟨.base (.arr fun _ => 1), fun _ => True, rfl,
    whole_base (arr_exact (fun _ : Fin 2 => (1 : ℝ)) fun _ => by norm_num) _, trivial⟩
  gp := .inr ⟨rfl, _, rfl, rfl, by
    ext i j
    simp [toMatrix, entries, Kernel.diagMat, Matrix.diagonal_apply, Fin.ext_iff]⟩
  pos := PosDef.diagonal fun _ => by norm_num

/-- Its signals: the first is of type `kind`. -/
def twoSigs (kind : Kind) : List LSig :=
  [⟨"c", kind, ⟨false, false, some [fun i => if i = 0 then 1 else 0], [fun i => if i = 0 then 1 else 0], .one 1 fun _ => 1⟩⟩,
   ⟨"b", .basis, ⟨false, false, some [fun i => if i = 0 then 0 else 1], [fun i => if i = 0 then 0 else 1], .one 1 fun _ => 1⟩⟩]

theorem twoSigs_positions (kind : Kind) : positions (fun _ => ()) (twoSigs kind) 0 = [("c", [0]), ("b", [1])] := by
  simp [positions, twoSigs, idxOf, combineIdx, columns]

theorem twoSigs_idx (kind : Kind) : idxOf (fun _ => ()) ((twoSigs kind).map LSig.b) = [some [0], some [1]] := by
  simp [twoSigs, idxOf, combineIdx, columns]

theorem twoSigs_distinct (kind : Kind) : Distinct (fun _ => ()) (twoSigs kind) := by
  rw [Distinct, twoSigs_idx]; simp

/-- The array of this one pulsar. -/
noncomputable def twoArray (kind : Kind) (h : kind ≠ .other) : Array (fun _ : Col ℝ => ()) where
  l := [(twoSigs kind, two)]
  plain := by
    intro x hx s hs
    simp only [List.mem_singleton] at hx
    subst hx
    simp only [twoSigs, List.mem_cons, List.not_mem_nil, or_false] at hs
    rcases hs with rfl | rfl
    · exact ⟨by simp [h], by intro F hF; simp only [Option.some.injEq] at hF; subst hF; rfl⟩
    · exact ⟨by simp, by intro F hF; simp only [Option.some.injEq] at hF; subst hF; rfl⟩
  size := by
    intro x hx
    simp only [List.mem_singleton] at hx
    subst hx
    simp only [width1, twoSigs_idx]
    rfl
  basis := by
    intro x hx
    simp only [List.mem_singleton] at hx
    subst hx
    simp [two, twoPsr]
  names := by
    rw [place_names]
    simp [twoSigs_positions]

example : ∀ x ∈ (twoArray .basis (by simp)).l, Distinct (fun _ : Col ℝ => ()) x.1 := by
  intro x hx
  simp only [twoArray, List.mem_singleton] at hx
  subst hx
  exact twoSigs_distinct _

theorem two_calc (M : Matrix (Fin 2) (Fin 0) ℝ) :
    ((1 : Matrix (Fin 2) (Fin 2) ℝ)ᵀ * (projN (diagonal fun _ => 1) M * 1) + (diagonal fun _ => 1)⁻¹)⁻¹ *ᵥ
      ((1 : Matrix (Fin 2) (Fin 2) ℝ)ᵀ *ᵥ (projN (diagonal fun _ => 1) M *ᵥ (![1, 2] - ([] : List (Fin 2 → ℝ)).sum))) =
      ![1 / 2, 1] := by
  have hinv : ((1 : Matrix (Fin 2) (Fin 2) ℝ) + 1)⁻¹ = (1 / 2 : ℝ) • 1 := by
    apply inv_eq_right_inv
    rw [← two_smul ℝ (1 : Matrix (Fin 2) (Fin 2) ℝ)]
    simp [smul_smul]
  have hdiag : (diagonal fun _ : Fin 2 => (1 : ℝ)) = 1 := diagonal_one
  rw [projN_zero, hdiag, inv_one, Matrix.one_mul, Matrix.mul_one, transpose_one, hinv, one_mulVec, one_mulVec,
    smul_mulVec, one_mulVec]
  ext i
  fin_cases i <;> simp

/-- The conditional means of the two coefficients are 1/2 and 1. -/
theorem two_mean : meanOf two = (![1 / 2, 1] : Fin 2 → ℝ) := two_calc _

/-- C59 fails for a common-type signal in an array without common signals (a single pulsar): it is skipped, gets
no coefficients, and the signals after it get those of the columns before theirs: here the signal `b`, whose
column has the mean coefficient 1, is given 1/2. -/
theorem C59_common_type_false (lib : Lib) (method : Method) (hm : method ≠ .other) (sparse : Bool) :
    positions (fun _ => ()) (twoSigs .commonBasis) 0 = [("c", [0]), ("b", [1])] ∧ meanOf two = (![1 / 2, 1] : Fin 2 → ℝ) ∧
    ∃ d, getCoefficients lib method sparse [two.p] [] [twoSigs .commonBasis] none = .ok d ∧
      d.get? "c_coefficients" = none ∧ d.get? "b_coefficients" = some [1 / 2] := by
  refine ⟨twoSigs_positions _, two_mean, ?_⟩
  have hpos : (two.A + two.Φ⁻¹).PosDef := sigma_posDef two.hN two.hM two.pos two.T
  have hlab : labelLoop wantBasis two.k (twoSigs .commonBasis) 0 = .ok ([("b", [0])], 1) := by
    show labelLoop wantBasis 2 (twoSigs .commonBasis) 0 = _
    simp [twoSigs, labelLoop, wantBasis]
  refine ⟨Dict.update [] (labelled (concatOf [⟨two.k, meanOf two⟩]) [("b", [0])]), ?_, ?_, ?_⟩
  · have : getLoop lib none [(two.p, twoSigs .commonBasis)] 0 [] =
        .ok (Dict.update [] (labelled (concatOf [⟨two.k, meanOf two⟩]) [("b", [0])])) := by
      rw [getLoop, two.TNr_eq, two.TNT_eq]
      simp only [bind, Except.bind, psrSigma_ok lib two (by simp [two, twoPsr]), svdCoef, svdMean_eq hpos, hlab]
      simp only [getLoop, add_zero, Option.map_none]
      rfl
    unfold getCoefficients
    cases method with
    | other => exact absurd rfl hm
    | _ => exact this
  · simp [labelled, Dict.update, Dict.ofList, Dict.set, Dict.get?]
  · rw [two_mean]
    simp only [labelled, Dict.update, Dict.ofList, Dict.set, Dict.get?, List.map_cons, List.map_nil, List.foldl_cons,
      List.foldl_nil]
    simp [concatOf, two]

/-- In the other labelling function they are right. -/
example (lib : Lib) (method : Method) (hm : method ≠ .other) :
    ∃ d, condCoefficients lib method [two.p] [] [twoSigs .commonBasis] none = .ok d ∧
      d.get? "c_coefficients" = some [1 / 2] ∧ d.get? "b_coefficients" = some [1] := by
  obtain ⟨d, e, h⟩ := C60_pulsars lib method hm (fun _ => ()) (twoArray .commonBasis (by simp)) (by
    intro x hx
    simp only [twoArray, List.mem_singleton] at hx
    subst hx
    exact twoSigs_distinct _) none
  have h0 := h 0 (twoSigs .commonBasis, two) rfl
  rw [show meanOf two + denseDraw lib two (Option.map (fun z : Nat → Nat → ℝ => z 0) none) = meanOf two from add_zero _,
    two_mean] at h0
  simp only [twoSigs_positions, pick] at h0
  refine ⟨d, e, ?_, ?_⟩
  · have := h0 ("c", [0]) (by simp)
    simpa [two] using this
  · have := h0 ("b", [1]) (by simp)
    simpa [two] using this

/-- Two signals that share a column: one coefficient for two signals of one column. -/
def sharedSigs : List LSig :=
  [⟨"c", .basis, ⟨true, false, some [fun _ => 1], [fun _ => 1], .one 1 fun _ => 1⟩⟩,
   ⟨"b", .basis, ⟨true, false, some [fun _ => 1], [fun _ => 1], .one 1 fun _ => 1⟩⟩]

example : vecLen (fun _ => ()) [sharedSigs] = 1 ∧
    labelAll wantBoth (vecLen (fun _ => ()) [sharedSigs]) [sharedSigs] 0 = .error .indexError := by
  have e : idxOf (fun _ => ()) (sharedSigs.map LSig.b) = [some [0], some [0]] := by
    simp [sharedSigs, idxOf, combineIdx, columns]
  refine ⟨by simp [vecLen, width1, e, ncol], C60_shared (fun _ => ()) _ ?_ ?_⟩
  · intro p hp s hs
    simp only [List.mem_singleton] at hp
    subst hp
    simp only [sharedSigs, List.mem_cons, List.not_mem_nil, or_false] at hs
    rcases hs with rfl | rfl <;>
      exact ⟨by simp, by intro F hF; simp only [Option.some.injEq] at hF; subst hF; rfl⟩
  · intro h
    have := h sharedSigs (by simp)
    rw [Distinct, e] at this
    simp at this

/-! The same pulsar for C58: its two processes marginalized, or the first one only and the second in coefficient
mode. -/

noncomputable def twoNoise : NoiseOf twoPsr where
  m := 0
  N := diagonal fun _ => 1
  M := of fun _ j => j.elim0
  good := fun _ => True
  noise := ⟨.base (.arr fun _ => 1), rfl,
    whole_base (arr_exact (fun _ : Fin 2 => (1 : ℝ)) fun _ => by norm_num) _⟩

noncomputable def twoGp : Gp 2 where
  k := 2
  T := 1
  Φ := diagonal fun _ => 1
  basis := some ⟨2, 1⟩
  phi := some (.one 2 fun _ => 1)
  gp := two.gp
  pos := two.pos

noncomputable def firstGp : Gp 2 where
  k := 1
  T := of fun i _ => if i = 0 then 1 else 0
  Φ := diagonal fun _ => 1
  basis := some ⟨1, of fun i _ => if i = 0 then 1 else 0⟩
  phi := some (.one 1 fun _ => 1)
  gp := .inr ⟨rfl, _, rfl, rfl, by
    ext i j
    simp [toMatrix, entries, Kernel.diagMat, Matrix.diagonal_apply, Fin.ext_iff]⟩
  pos := PosDef.diagonal fun _ => by norm_num

noncomputable def secondKey (x : ℝ) : Key where
  κ := .one 1 fun _ => 1
  c := fun _ => x
  pos := by
    have : toMatrix 1 (entries (Kern.one 1 fun _ => (1 : ℝ))) = diagonal fun _ => 1 := by
      ext i j
      simp [toMatrix, entries, Kernel.diagMat, Matrix.diagonal_apply, Fin.ext_iff]
    show (toMatrix 1 (entries (Kern.one 1 fun _ => (1 : ℝ)))).PosDef
    rw [this]
    exact PosDef.diagonal fun _ => by norm_num

theorem cov_split : (1 : Matrix (Fin 2) (Fin 2) ℝ) * (diagonal fun _ : Fin 2 => (1 : ℝ)) * (1 : Matrix (Fin 2) (Fin 2) ℝ)ᵀ =
    (of fun i _ => if i = 0 then 1 else 0 : Matrix (Fin 2) (Fin 1) ℝ) * (diagonal fun _ : Fin 1 => (1 : ℝ)) *
      (of fun i _ => if i = 0 then 1 else 0 : Matrix (Fin 2) (Fin 1) ℝ)ᵀ +
    (of fun i _ => if i = 1 then 1 else 0 : Matrix (Fin 2) (Fin 1) ℝ) * (1 : Matrix (Fin 1) (Fin 1) ℝ) *
      (of fun i _ => if i = 1 then 1 else 0 : Matrix (Fin 2) (Fin 1) ℝ)ᵀ := by
  ext i j
  fin_cases i <;> fin_cases j <;> simp [Matrix.mul_apply]

example (x : ℝ) : twoGp.T * twoGp.Φ * twoGp.Tᵀ = firstGp.T * firstGp.Φ * firstGp.Tᵀ +
    (of fun i _ => if i = 1 then 1 else 0 : Matrix (Fin 2) (Fin ([secondKey x].map Key.size).sum) ℝ) *
      keysPhi [secondKey x] * (of fun i _ => if i = 1 then 1 else 0 : Matrix (Fin 2) (Fin ([secondKey x].map Key.size).sum) ℝ)ᵀ := by
  have hk : keysPhi [secondKey x] = (1 : Matrix (Fin 1) (Fin 1) ℝ) := by
    ext i j
    obtain ⟨i, rfl⟩ := (es Key.size (secondKey x) []).surjective i
    obtain ⟨j, rfl⟩ := (es Key.size (secondKey x) []).surjective j
    rcases i with i | i
    · rcases j with j | j
      · have hi : i = (0 : Fin 1) := Subsingleton.elim (α := Fin 1) _ _
        have hj : j = (0 : Fin 1) := Subsingleton.elim (α := Fin 1) _ _
        subst hi hj
        simp [keysPhi, jm, Key.φ, secondKey, toMatrix, entries, Kernel.diagMat]
        rfl
      · exact j.elim0
    · exact i.elim0
  rw [hk]
  exact cov_split

end Verif.Coefficients
