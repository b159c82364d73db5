import Verif.Model.Several
import Verif.Props.Gwb
import Verif.Props.Shared

/-!
# Property C115: several common processes add up
-/

namespace Verif.Background

open Verif Verif.Likelihood Verif.Noise Verif.Combine Verif.Joined Finset
open Verif.Orf (Pos orfMatrix)
open Verif.PhiInv (toMatrix)
open Verif.Kernel (Arr)
open Verif.Partition (Svd)

variable {H : Type} [DecidableEq H]

/-- A process of class `c` with a fixed basis of as many columns as there are variances `v`. -/
structure AlikeAt (c : Nat) (cb : Bool) (v : List ℝ) (g : GSig) : Prop where
  combine : g.combine = cb
  fixed : g.varying = false
  basis : g.basis = some g.basisAt
  len : g.basisAt.length = v.length
  prior : g.prior = .one v.length fun p => v.getD p 0
  cls : g.cls = some c

/-- What is asked of the variances of a class: there are some, and they are positive. -/
def Classes (ks : List (Bool × List ℝ)) : Prop := ∀ k ∈ ks, k.2 ≠ [] ∧ ∀ x ∈ k.2, 0 < x

/-- The common processes of a pulsar: one of each class, in order. -/
def Each (ks : List (Bool × List ℝ)) (R : Nat → Member → GSig → List ℝ → Prop) (m : Member) (gs : List GSig) (φ : Nat → List ℝ) : Prop :=
  gs.length = ks.length ∧ ∀ (c : Nat) (g : GSig) (k : Bool × List ℝ), gs[c]? = some g → ks[c]? = some k → AlikeAt c k.1 k.2 g ∧ R c m g (φ c)

/-- The pulsars of the array with their common processes; `R` is what is known of the process of a class in a pulsar. -/
def Arrays (ks : List (Bool × List ℝ)) (R : Nat → Member → GSig → List ℝ → Prop) (ms : List Member) (ps : List JPsr) : Prop :=
  List.Forall₂ (fun m p => ∃ gs φ, p = m.psrs gs ∧ Each ks R m gs φ) ms ps

variable {ks : List (Bool × List ℝ)} {R : Nat → Member → GSig → List ℝ → Prop}

theorem Each.get {m : Member} {gs : List GSig} {φ : Nat → List ℝ} (h : Each ks R m gs φ) {g : GSig} (hg : g ∈ gs) :
    ∃ c k, gs[c]? = some g ∧ ks[c]? = some k ∧ AlikeAt c k.1 k.2 g ∧ R c m g (φ c) := by
  obtain ⟨c, hc, rfl⟩ := List.getElem_of_mem hg
  have hk : ks[c]? = some (ks[c]'(by rw [← h.1]; exact hc)) := List.getElem?_eq_getElem _
  obtain ⟨h1, h2⟩ := h.2 c _ _ (List.getElem?_eq_getElem hc) hk
  exact ⟨c, _, List.getElem?_eq_getElem hc, hk, h1, h2⟩

theorem Each.sum {m : Member} {gs : List GSig} {φ : Nat → List ℝ} (h : Each ks R m gs φ) (F : GSig → ℝ) (d : Nat) (hd : d < ks.length)
    (h0 : ∀ g ∈ gs, g.cls ≠ some d → F g = 0) (g : GSig) (hg : gs[d]? = some g) : (gs.map F).sum = F g := by
  have hlt : d < gs.length := by rw [h.1]; exact hd
  rw [List.getElem?_eq_getElem hlt] at hg
  cases hg
  rw [sum_fin, Finset.sum_eq_single (⟨d, hlt⟩ : Fin gs.length)]
  · rfl
  · intro u _ hu
    apply h0 _ (List.getElem_mem _)
    intro e
    apply hu
    have hk : ks[u.1]? = some (ks[u.1]'(by rw [← h.1]; exact u.2)) := List.getElem?_eq_getElem _
    have := (h.2 u.1 _ _ (List.getElem?_eq_getElem u.2) hk).1.cls
    have e : gs[u.1].cls = some d := e
    rw [this] at e
    exact Fin.ext (Option.some.inj e)
  · simp

theorem mem_psrs {m : Member} {gs : List GSig} {x : GSig} (h : x ∈ (m.psrs gs).gps) : x ∈ gs ∨ ∃ b ∈ m.before ++ m.after, x = ownSig b := by
  simp only [Member.psrs, List.mem_append, List.mem_map] at h ⊢
  rcases h with ⟨b, hb, rfl⟩ | h | ⟨b, hb, rfl⟩
  · exact .inr ⟨b, .inl hb, rfl⟩
  · exact .inl h
  · exact .inr ⟨b, .inr hb, rfl⟩

theorem own_none (c : Nat) (l : List (BSig ℝ)) : ((l.map ownSig).filter fun x : GSig => x.basis.isSome && decide (x.cls = some c)) = [] := by
  rw [List.filter_eq_nil_iff]
  intro x hx
  obtain ⟨b, -, rfl⟩ := List.mem_map.1 hx
  simp [ownSig]

theorem filter_class {m : Member} {gs : List GSig} {φ : Nat → List ℝ} (h : Each ks R m gs φ) (d : Nat) :
    (gs.filter fun x => x.basis.isSome && decide (x.cls = some d)) = gs[d]?.toList := by
  have key : ∀ (l : List GSig) (o : Nat), (∀ (c : Nat) (g : GSig), l[c]? = some g → g.basis.isSome = true ∧ g.cls = some (o + c)) →
      (l.filter fun x => x.basis.isSome && decide (x.cls = some d)) = if d < o then [] else l[d - o]?.toList := by
    intro l
    induction l with
    | nil => intro o _; simp
    | cons g t ih =>
      intro o hl
      obtain ⟨h1, h2⟩ := hl 0 g rfl
      rw [List.filter_cons, ih (o + 1) fun c g hg => by
        obtain ⟨h3, h4⟩ := hl (c + 1) g (by simpa using hg)
        exact ⟨h3, by rw [h4]; congr 1; omega⟩]
      rw [h1, h2]
      simp only [Bool.true_and, Option.some.injEq, add_zero, decide_eq_true_eq]
      rcases lt_trichotomy d o with hd | hd | hd
      · rw [if_neg (by omega), if_pos (by omega), if_pos hd]
      · subst hd
        rw [if_pos rfl, if_pos (by omega), if_neg (by omega)]
        simp
      · rw [if_neg (by omega), if_neg (by omega), if_neg (by omega)]
        obtain ⟨e, rfl⟩ : ∃ e, d = o + 1 + e := ⟨d - (o + 1), by omega⟩
        rw [show o + 1 + e - (o + 1) = e by omega, show o + 1 + e - o = e + 1 by omega]
        simp
  rw [key gs 0 fun c g hg => ?_]
  · simp
  · have hc : c < gs.length := (List.getElem?_eq_some_iff.1 hg).1
    have := (h.2 c g _ hg (List.getElem?_eq_getElem (by rw [← h.1]; exact hc))).1
    exact ⟨by rw [this.basis]; rfl, by rw [this.cls, zero_add]⟩

theorem ofClass_arrays {ms : List Member} {ps : List JPsr} (h : Arrays ks R ms ps) (c : Nat) :
    ofClass ps c = match ks[c]? with
      | some k => ms.map fun m => ((.one k.2.length fun p => k.2.getD p 0 : Arr ℝ), m.pos)
      | none => [] := by
  unfold ofClass
  induction h with
  | nil => cases ks[c]? <;> simp
  | cons hr _ ih =>
    obtain ⟨gs, φ, rfl, hg⟩ := hr
    rw [List.flatMap_cons, ih]
    simp only [Member.psrs, List.filter_append, own_none, List.nil_append, List.append_nil, filter_class hg]
    cases hk : ks[c]? with
    | none =>
      have : gs[c]? = none := by
        rw [List.getElem?_eq_none_iff] at hk ⊢
        rw [hg.1]; exact hk
      rw [this]; rfl
    | some k =>
      have hlt : c < gs.length := by rw [hg.1]; exact (List.getElem?_eq_some_iff.1 hk).1
      have hgc : gs[c]? = some gs[c] := List.getElem?_eq_getElem hlt
      rw [hgc]
      simp [(hg.2 c _ k hgc hk).1.prior]

/-- A process of its own with a basis. -/
def HasBasis (m : Member) : Prop := ∃ b ∈ m.before ++ m.after, b.basis ≠ none

/-- The processes of an array of this kind are as `C107` asks. -/
theorem apt_arrays (hash : Col ℝ → H) (hh : Function.Injective hash) (orf : Nat → Pos → Pos → ℝ) (hv : Classes ks)
    {ms : List Member} (hks : ks ≠ [] ∨ ∀ m ∈ ms, HasBasis m) {ps : List JPsr} (h : Arrays ks R ms ps)
    (hown : ∀ m ∈ ms, OwnOk m) (hd : ∀ p ∈ ps, ∀ g ∈ p.gps, g.cls ≠ none → g.combine = true → g.basisAt.Nodup)
    (horf : ∀ c, c < ks.length → (orfMatrix (orf c) fun u : Fin ms.length => (ms[u]).pos).PosDef) : Apt hash orf ps := by
  have hget : ∀ p ∈ ps, ∃ m ∈ ms, ∃ gs φ, p = m.psrs gs ∧ Each ks R m gs φ := by
    intro p hp
    obtain ⟨m, hm, gs, φ, h1, h2⟩ := Fourier.forall₂_right h p hp
    exact ⟨m, hm, gs, φ, h1, h2⟩
  have hmem : ∀ (c : Nat) (k : Bool × List ℝ), ks[c]? = some k → k.2 ≠ [] ∧ ∀ x ∈ k.2, 0 < x := fun c k hk => hv k (List.mem_of_getElem? hk)
  refine ⟨?_, ?_, ?_, ?_, ?_, ?_, ?_⟩
  · intro p hp x hx
    obtain ⟨m, hm, gs, φ, rfl, hg⟩ := hget p hp
    rcases mem_psrs hx with hxg | ⟨b, hb, rfl⟩
    · obtain ⟨c, k, -, hk, ha, -⟩ := hg.get hxg
      intro F hF
      have hF : x.basis = some F := hF
      rw [ha.basis] at hF
      cases hF
      refine ⟨?_, rfl, fun _ => rfl, ?_, fun _ hc => hd _ hp x hx (by rw [ha.cls]; simp) hc⟩
      · intro e
        have := ha.len
        rw [e, List.length_nil] at this
        exact (hmem c k hk).1 (List.length_eq_zero_iff.1 this.symm)
      · simp only [bsig, ha.cls, ha.prior, Option.elim_some, PtaPhi.phicross, SizeOk]
        rw [ha.len]
    · exact (hown m hm b hb).2.1
  · intro p hp
    apply ordered_all
    intro b hb
    obtain ⟨x, hx, rfl⟩ := List.mem_map.1 hb
    obtain ⟨m, hm, gs, φ, rfl, hg⟩ := hget p hp
    rcases mem_psrs hx with hxg | ⟨b, hb', rfl⟩
    · obtain ⟨c, k, -, hk, ha, -⟩ := hg.get hxg
      exact ha.fixed
    · exact (hown m hm b hb').1
  · intro p _ s _ s' _ F F' _ _ c _ c' _ e
    exact hh e
  · intro p hp
    obtain ⟨m, hm, gs, φ, rfl, hg⟩ := hget p hp
    rcases hks with hks | hks
    · have hlt : 0 < gs.length := by rw [hg.1]; exact List.length_pos_iff.2 hks
      obtain ⟨c, k, -, hk, ha, -⟩ := hg.get (List.getElem_mem hlt)
      exact ⟨gs[0], by simp [Member.psrs], by rw [ha.basis]; simp⟩
    · obtain ⟨b, hb, hne⟩ := hks m hm
      refine ⟨ownSig b, ?_, hne⟩
      rcases List.mem_append.1 hb with hb | hb
      · exact List.mem_append_left _ (List.mem_map_of_mem hb)
      · exact List.mem_append_right _ (List.mem_append_right _ (List.mem_map_of_mem hb))
  · intro p hp x hx hb
    obtain ⟨m, hm, gs, φ, rfl, hg⟩ := hget p hp
    rcases mem_psrs hx with hxg | ⟨b, hb', rfl⟩
    · obtain ⟨c, k, -, hk, ha, -⟩ := hg.get hxg
      rw [ha.prior, ha.len]
      exact Fourier.diag_pos k.2 (hmem c k hk).2
    · exact (hown m hm b hb').2.2 hb
  · intro c u hu u' hu'
    rw [ofClass_arrays h] at hu hu'
    cases hk : ks[c]? with
    | none => rw [hk] at hu; cases hu
    | some k =>
      rw [hk] at hu hu'
      obtain ⟨m, -, rfl⟩ := List.mem_map.1 hu
      obtain ⟨m', -, rfl⟩ := List.mem_map.1 hu'
      rfl
  · intro c
    cases hk : ks[c]? with
    | none =>
      have e : ofClass ps c = [] := by rw [ofClass_arrays h, hk]
      have : IsEmpty (Fin (ofClass ps c).length) := by rw [e]; exact Fin.isEmpty
      rw [Subsingleton.elim (orfMatrix (orf c) fun u : Fin (ofClass ps c).length => ((ofClass ps c)[u]).2) 1]
      exact Matrix.PosDef.one
    | some k => exact orf_pos (by rw [ofClass_arrays h, hk]) (orf c) (horf c (List.getElem?_eq_some_iff.1 hk).1)

/-- The covariance of the Gaussian processes between two TOAs of the array. -/
theorem covs_rows (orf : Nat → Pos → Pos → ℝ) {ps : List JPsr} (a b : Nat) (m m' : Member) (gs gs' : List GSig) (φ φ' : Nat → List ℝ)
    (ha : ps[a]? = some (m.psrs gs)) (hb : ps[b]? = some (m'.psrs gs')) (hg : Each ks R m gs φ) (hg' : Each ks R m' gs' φ') (i j : Nat)
    (hi : i < m.toas.length) (hj : j < m'.toas.length) (X : Nat → ℝ)
    (hX : ∀ c g g', gs[c]? = some g → gs'[c]? = some g' → crossCov g g' i j = X c) :
    gpCov orf ps (rowStart ps a + i) (rowStart ps b + j) =
      (if a = b then ((m.before ++ m.after).map fun o => sigCov o i j).sum else 0) + ∑ c ∈ range ks.length, orf c m.pos m'.pos * X c := by
  rw [gpCov_rows orf ps a b _ _ ha hb i j hi hj]
  have hsome : ∀ {m : Member} {gs : List GSig} {φ : Nat → List ℝ}, Each ks R m gs φ → (gs.filter fun g => g.basis.isSome) = gs := by
    intro m gs φ h
    rw [List.filter_eq_self]
    intro g hg
    obtain ⟨c, k, -, -, h1, -⟩ := h.get hg
    rw [h1.basis]; rfl
  have zero : ∀ (l : List (BSig ℝ)) (F : GSig → ℝ), (∀ b, F (ownSig b) = 0) → (((l.map ownSig).filter fun g : GSig => g.basis.isSome).map F).sum = 0 := by
    intro l F hF
    apply List.sum_eq_zero
    intro z hz
    obtain ⟨x, hx, rfl⟩ := List.mem_map.1 hz
    obtain ⟨b, -, rfl⟩ := List.mem_map.1 (List.mem_filter.1 hx).1
    exact hF b
  have only : ∀ {m : Member} {gs : List GSig} {φ : Nat → List ℝ}, Each ks R m gs φ → ∀ F : GSig → ℝ, (∀ b, F (ownSig b) = 0) →
      (((m.psrs gs).gps.filter fun g => g.basis.isSome).map F).sum = (gs.map F).sum := by
    intro m gs φ h F hF
    simp only [Member.psrs, List.filter_append, hsome h, List.map_append, List.sum_append, zero _ F hF, add_zero, zero_add]
  congr 1
  · by_cases hab : a = b
    · rw [if_pos hab, if_pos hab]
      have hn : (gs.map fun g => if g.cls = none then crossCov g g i j else 0).sum = 0 := by
        apply List.sum_eq_zero
        intro z hz
        obtain ⟨g, hg1, rfl⟩ := List.mem_map.1 hz
        obtain ⟨c, k, -, -, h1, -⟩ := hg.get hg1
        rw [h1.cls]; simp
      simp only [Member.psrs, List.filter_append, hsome hg, List.map_append, List.sum_append, own_sum, hn, zero_add]
    · rw [if_neg hab, if_neg hab]
  · rw [only hg _ (by
      intro b
      apply List.sum_eq_zero
      intro z hz
      obtain ⟨x, -, rfl⟩ := List.mem_map.1 hz
      rfl)]
    rw [sum_fin, ← hg.1, Finset.sum_range]
    apply Finset.sum_congr rfl
    intro u _
    have hu : gs[u.1]? = some gs[u] := List.getElem?_eq_getElem u.2
    have hku : u.1 < ks.length := by rw [← hg.1]; exact u.2
    have hc := (hg.2 u.1 _ _ hu (List.getElem?_eq_getElem hku)).1.cls
    have hlt : u.1 < gs'.length := by rw [hg'.1]; exact hku
    have hu' : gs'[u.1]? = some gs'[u.1] := List.getElem?_eq_getElem hlt
    have hc' := (hg'.2 u.1 _ _ hu' (List.getElem?_eq_getElem hku)).1.cls
    rw [only hg' _ (by
      intro b
      rw [hc]
      rfl), hg'.sum _ u.1 hku (by
      intro g hgm hne
      obtain ⟨c, k, -, -, h1, -⟩ := hg'.get hgm
      rw [hc, h1.cls]
      have : ¬ u.1 = c := fun e => hne (by rw [h1.cls, e])
      exact if_neg this) _ hu', hc, hc']
    simp only [if_true]
    rw [hX u.1 _ _ hu hu']
    rfl

/-- The covariance of an array with the common processes of the classes 0, ..., `n - 1`: noise `N` and processes of its own in each
pulsar, and between TOA `i` of pulsar `a` and TOA `j` of pulsar `b` the sum over the classes of the overlap of the two pulsars times
`X c a b i j`. -/
def AreCov (n : Nat) (orf : Nat → Pos → Pos → ℝ) (X : Nat → Nat → Nat → Nat → Nat → ℝ) (ms : List Member) (ps : List JPsr)
    (N : ∀ p : JPsr, Matrix (Fin p.n) (Fin p.n) ℝ) (C : Matrix (Fin (ps.map JPsr.n).sum) (Fin (ps.map JPsr.n).sum) ℝ) : Prop :=
  List.Forall₂ MemberData ms ps ∧ ∀ (a b : Nat) (m m' : Member) (p : JPsr), ms[a]? = some m → ms[b]? = some m' → ps[a]? = some p → ∀ i j, i < m.toas.length → j < m'.toas.length →
    ∀ r s : Fin (ps.map JPsr.n).sum, (r : Nat) = rowStart ps a + i → (s : Nat) = rowStart ps b + j →
      C r s = (if a = b then spanned (N p) i j + ((m.before ++ m.after).map fun o => sigCov o i j).sum else 0) +
        ∑ c ∈ range n, orf c m.pos m'.pos * X c a b i j

theorem density_arrays (orf : Nat → Pos → Pos → ℝ) {ms : List Member} {ps : List JPsr} (h : Arrays ks R ms ps) :
    ∃ φ : Nat → Nat → List ℝ, (∀ a c, (∃ m g k, ms[a]? = some m ∧ ks[c]? = some k ∧ AlikeAt c k.1 k.2 g ∧ R c m g (φ a c)) ∨ φ a c = []) ∧
      ∀ X : Nat → Nat → Nat → Nat → Nat → ℝ, (∀ c a b m m' g g' k, ks[c]? = some k → ms[a]? = some m → ms[b]? = some m' → AlikeAt c k.1 k.2 g →
          AlikeAt c k.1 k.2 g' → R c m g (φ a c) → R c m' g' (φ b c) → ∀ i j, i < m.toas.length → j < m'.toas.length → crossCov g g' i j = X c a b i j) →
      ∀ (m : JPsr → Nat) (N : ∀ p : JPsr, Matrix (Fin p.n) (Fin p.n) ℝ) (M : ∀ p : JPsr, Matrix (Fin p.n) (Fin (m p)) ℝ),
        ∃ C, C = Joint.jm JPsr.n JPsr.n N ps + toMatrix (ps.map JPsr.n).sum (gpCov orf ps) ∧
          AreCov ks.length orf X ms ps N C ∧ density orf ps m N M = margLog C (Joint.jm JPsr.n m M ps)
          (Joint.jv JPsr.n (fun p => p.res - p.delays.reduceOption.sum) ps) := by
  have hx : ∀ a : Nat, ∃ φ : Nat → List ℝ, (∀ (m : Member) (p : JPsr), ms[a]? = some m → ps[a]? = some p → ∃ gs, p = m.psrs gs ∧ Each ks R m gs φ) ∧
      ∀ c, (∃ m g k, ms[a]? = some m ∧ ks[c]? = some k ∧ AlikeAt c k.1 k.2 g ∧ R c m g (φ c)) ∨ φ c = [] := by
    intro a
    by_cases hm : ∃ m p, ms[a]? = some m ∧ ps[a]? = some p
    · obtain ⟨m, p, hm, hp⟩ := hm
      obtain ⟨gs, φ, h1, h2⟩ := forall_get h a m p hm hp
      refine ⟨fun c => if c < ks.length then φ c else [], ?_, fun c => ?_⟩
      · intro m' p' hm' hp'
        rw [hm] at hm'
        rw [hp] at hp'
        cases hm'
        cases hp'
        refine ⟨gs, h1, h2.1, fun c g k hg hk => ?_⟩
        simp only [if_pos (List.getElem?_eq_some_iff.1 hk).1]
        exact h2.2 c g k hg hk
      · by_cases hc : c < ks.length
        · left
          have hlt : c < gs.length := by rw [h2.1]; exact hc
          obtain ⟨h3, h4⟩ := h2.2 c _ _ (List.getElem?_eq_getElem hlt) (List.getElem?_eq_getElem hc)
          exact ⟨m, _, _, hm, List.getElem?_eq_getElem hc, h3, by simp only [if_pos hc]; exact h4⟩
        · right
          exact if_neg hc
    · exact ⟨fun _ => [], fun m p h1 h2 => absurd ⟨m, p, h1, h2⟩ hm, fun _ => .inr rfl⟩
  choose φ h1 h2 using hx
  refine ⟨φ, h2, fun X hX m N M => ⟨_, rfl, ⟨h.imp ?_, ?_⟩, rfl⟩⟩
  · rintro m p ⟨gs, φ, rfl, -⟩
    exact ⟨rfl, rfl, rfl, rfl⟩
  intro a b m m' p hm hm' hp i j hi hj r s hr hs
  obtain ⟨gs, rfl, hg⟩ := h1 a m p hm hp
  have hlt : b < ps.length := by
    rw [← h.length_eq]
    exact (List.getElem?_eq_some_iff.1 hm').1
  obtain ⟨q, hq⟩ : ∃ q, ps[b]? = some q := ⟨_, List.getElem?_eq_getElem hlt⟩
  obtain ⟨gs', rfl, hg'⟩ := h1 b m' q hm' hq
  rw [Matrix.add_apply, noise_rows ps N a b _ _ hp hq i j hi hj r s hr hs]
  have e : toMatrix (ps.map JPsr.n).sum (gpCov orf ps) r s = gpCov orf ps (rowStart ps a + i) (rowStart ps b + j) := by
    rw [← hr, ← hs]; rfl
  rw [e, covs_rows orf a b m m' gs gs' (φ a) (φ b) hp hq hg hg' i j hi hj (fun c => X c a b i j) (by
    intro c g g' h3 h4
    have hc : c < ks.length := by rw [← hg.1]; exact (List.getElem?_eq_some_iff.1 h3).1
    obtain ⟨h5, h6⟩ := hg.2 c g _ h3 (List.getElem?_eq_getElem hc)
    obtain ⟨h7, h8⟩ := hg'.2 c g' _ h4 (List.getElem?_eq_getElem hc)
    exact hX c a b m m' g g' _ (List.getElem?_eq_getElem hc) hm hm' h5 h7 h6 h8 i j hi hj)]
  by_cases hab : a = b
  · rw [if_pos hab, if_pos hab, if_pos hab]; ring
  · rw [if_neg hab, if_neg hab, if_neg hab]; ring

/-! ## Fourier processes -/

/-- What is known of the arguments of a class: the frequencies `f` and variances `w` of its processes. -/
structure Spec (k : Common) (T : ℝ) (f w : List ℝ) : Prop where
  nonempty : f ≠ []
  freqs : ∀ toas, Bases.freqs toas { k.args with Tspan := some T } = .ok (f, false)
  spectrum : k.spectrum (Bases.rep 2 f) = .ok (Bases.rep 2 w)
  len : w.length = f.length
  pos : ∀ x ∈ w, 0 < x

/-- The process of class `c` in a pulsar. -/
def GwAt (k : Common) (f w toas : List ℝ) (g : GSig) (φ : List ℝ) : Prop := Gw k f w toas { g with cls := some 0 } φ

theorem gsigs_each (seeded : Int → Bases.Rng) (m : Member) (ks : List ((Common × ℝ) × List ℝ × List ℝ)) :
    (∀ k ∈ ks, Spec k.1.1 k.1.2 k.2.1 k.2.2) → ∀ (o : Nat) (rng rng' : Bases.Rng) (gs : List GSig),
    gsigs seeded m.toas (ks.map Prod.fst) o rng = .ok (gs, rng') → gs.length = ks.length ∧ ∃ φ : Nat → List ℝ,
      ∀ (c : Nat) (g : GSig) (k : (Common × ℝ) × List ℝ × List ℝ), gs[c]? = some g → ks[c]? = some k →
        AlikeAt (o + c) k.1.1.combine (Bases.rep 2 k.2.2) g ∧ GwAt k.1.1 k.2.1 k.2.2 m.toas g (φ c) := by
  induction ks with
  | nil =>
    intro _ o rng rng' gs h
    simp only [List.map_nil, gsigs, Except.ok.injEq, Prod.mk.injEq] at h
    obtain ⟨rfl, -⟩ := h
    exact ⟨rfl, fun _ => [], by simp⟩
  | cons k t ih =>
    intro hk o rng rng' gs h
    rw [List.map_cons, gsigs] at h
    split at h
    · cases h
    · rename_i g r1 h1
      split at h
      · cases h
      · rename_i l r2 h2
        simp only [Except.ok.injEq, Prod.mk.injEq] at h
        obtain ⟨rfl, -⟩ := h
        obtain ⟨e1, φ, e2⟩ := ih (fun k hk' => hk k (by simp [hk'])) (o + 1) _ _ _ h2
        have hs := hk k (by simp)
        obtain ⟨φ0, e3⟩ := gsig_gw k.1.1 seeded k.1.2 k.2.1 k.2.2 hs.freqs hs.spectrum hs.len m.toas _ _ g h1
        refine ⟨by simp [e1], fun c => if c = 0 then φ0 else φ (c - 1), ?_⟩
        intro c g' k' hg hk'
        cases c with
        | zero =>
          simp only [List.getElem?_cons_zero, Option.some.injEq] at hg hk'
          subst hg hk'
          refine ⟨⟨e3.alike.combine, e3.alike.fixed, e3.alike.basis, e3.alike.len, e3.alike.prior, rfl⟩, ?_⟩
          simp only [if_true]
          exact ⟨⟨e3.alike.combine, e3.alike.fixed, e3.alike.basis, e3.alike.len, e3.alike.prior, rfl⟩, e3.phase, e3.entry, e3.zero, e3.out⟩
        | succ c =>
          have := e2 c g' k' (by simpa using hg) (by simpa using hk')
          rw [show o + (c + 1) = o + 1 + c by omega]
          simpa using this

theorem gsigs_ok (seeded : Int → Bases.Rng) (toas : List ℝ) (ks : List ((Common × ℝ) × List ℝ × List ℝ)) :
    (∀ k ∈ ks, Spec k.1.1 k.1.2 k.2.1 k.2.2 ∧ k.1.1.args.pseed = none) → ∀ (o : Nat) (rng : Bases.Rng),
    ∃ gs rng', gsigs seeded toas (ks.map Prod.fst) o rng = .ok (gs, rng') := by
  induction ks with
  | nil => intro _ o rng; exact ⟨[], rng, rfl⟩
  | cons k t ih =>
    intro hk o rng
    obtain ⟨hs, hn⟩ := hk k (by simp)
    have : ∃ g rng', k.1.1.gsig seeded k.1.2 toas rng = .ok (g, rng') := by
      have hp : ∃ φ r, Bases.phases seeded rng toas { k.1.1.args with Tspan := some k.1.2 } k.2.1.length = .ok (φ, r) := by
        unfold Bases.phases
        simp only [hn]
        split <;> exact ⟨_, _, rfl⟩
      obtain ⟨φ, r, hp⟩ := hp
      unfold Common.gsig Bases.red
      rw [hs.freqs]
      simp only [bind, Except.bind, hp, Bool.false_eq_true, if_false, hs.spectrum]
      exact ⟨_, _, rfl⟩
    obtain ⟨g, rng', hg⟩ := this
    obtain ⟨l, rng'', hl⟩ := ih (fun k hk' => hk k (by simp [hk'])) (o + 1) rng'
    refine ⟨{ g with cls := some o } :: l, rng'', ?_⟩
    rw [List.map_cons, gsigs, hg]
    simp only [hl]

/-- Without seeds the array can always be built. -/
theorem arrayOf_ok (seeded : Int → Bases.Rng) (ks : List ((Common × ℝ) × List ℝ × List ℝ))
    (hk : ∀ k ∈ ks, Spec k.1.1 k.1.2 k.2.1 k.2.2 ∧ k.1.1.args.pseed = none) (ms : List Member) : ∀ rng,
    ∃ ps, arrayOf seeded (ks.map Prod.fst) ms rng = .ok ps := by
  induction ms with
  | nil => intro rng; exact ⟨[], rfl⟩
  | cons m t ih =>
    intro rng
    obtain ⟨gs, rng', h⟩ := gsigs_ok seeded m.toas ks hk 0 rng
    obtain ⟨l, hl⟩ := ih rng'
    refine ⟨m.psrs gs :: l, ?_⟩
    rw [arrayOf, h]
    simp only [hl]

/-- What is known of the processes of the classes. -/
def Known' (ks : List ((Common × ℝ) × List ℝ × List ℝ)) (c : Nat) (m : Member) (g : GSig) (φ : List ℝ) : Prop :=
  ∀ k, ks[c]? = some k → GwAt k.1.1 k.2.1 k.2.2 m.toas g φ

/-- Combining and variances of each class. -/
def shapes (ks : List ((Common × ℝ) × List ℝ × List ℝ)) : List (Bool × List ℝ) := ks.map fun k => (k.1.1.combine, Bases.rep 2 k.2.2)

theorem arrayOf_arrays (seeded : Int → Bases.Rng) (ks : List ((Common × ℝ) × List ℝ × List ℝ)) (hk : ∀ k ∈ ks, Spec k.1.1 k.1.2 k.2.1 k.2.2)
    (ms : List Member) : ∀ (rng : Bases.Rng) (ps : List JPsr), arrayOf seeded (ks.map Prod.fst) ms rng = .ok ps →
    Arrays (shapes ks) (Known' ks) ms ps := by
  induction ms with
  | nil => intro rng ps h; cases h; exact .nil
  | cons m t ih =>
    intro rng ps h
    rw [arrayOf] at h
    split at h
    · cases h
    · rename_i gs rng' h1
      split at h
      · cases h
      · rename_i l h2
        cases h
        obtain ⟨e1, φ, e2⟩ := gsigs_each seeded m ks hk 0 _ _ _ h1
        refine .cons ⟨gs, φ, rfl, by simp [shapes, e1], ?_⟩ (ih _ _ h2)
        intro c g k hg hkc
        rw [shapes, List.getElem?_map] at hkc
        obtain ⟨k', hk', rfl⟩ := Option.map_eq_some_iff.1 hkc
        obtain ⟨e3, e4⟩ := e2 c g k' hg hk'
        rw [zero_add] at e3
        refine ⟨e3, fun k hk'' => ?_⟩
        rw [hk'] at hk''
        cases hk''
        exact e4

theorem shapes_ok (ks : List ((Common × ℝ) × List ℝ × List ℝ)) (hk : ∀ k ∈ ks, Spec k.1.1 k.1.2 k.2.1 k.2.2) : Classes (shapes ks) := by
  intro k hkm
  obtain ⟨k, hkm', rfl⟩ := List.mem_map.1 hkm
  have hs := hk k hkm'
  refine ⟨fun e => ?_, fun x hx => hs.pos x (Fourier.mem_rep hx)⟩
  have := congrArg List.length e
  rw [Bases.rep_length, hs.len, List.length_nil] at this
  have := List.length_pos_iff.2 hs.nonempty
  omega

/-- C115: with any number of common Fourier processes of any spectra and overlaps, phases shifted or not, the likelihood is the
density of the Gaussian whose covariance between TOAs of two pulsars is the sum over the processes of overlap times covariance of the
waves, plus noise and own processes of each pulsar. -/
theorem C115_sparse (hash : Col ℝ → H) (hh : Function.Injective hash) (svd : ∀ {n : Nat} (M : Matrix (Fin n) (Fin n) ℝ), Svd M)
    (seeded : Int → Bases.Rng) (orf : Nat → Pos → Pos → ℝ) (ks : List ((Common × ℝ) × List ℝ × List ℝ)) (h0 : ks ≠ [])
    (hk : ∀ k ∈ ks, Spec k.1.1 k.1.2 k.2.1 k.2.2) (ms : List Member) (hown : ∀ m ∈ ms, OwnOk m)
    (horf : ∀ c, c < ks.length → (orfMatrix (orf c) fun u : Fin ms.length => (ms[u]).pos).PosDef) (rng : Bases.Rng) (ps : List JPsr)
    (hps : arrayOf seeded (ks.map Prod.fst) ms rng = .ok ps)
    (hd : ∀ p ∈ ps, ∀ g ∈ p.gps, g.cls ≠ none → g.combine = true → g.basisAt.Nodup) :
    ∃ φ : Nat → Nat → List ℝ, (∀ c k, ks[c]? = some k → k.1.1.args.pshift = false → k.1.1.args.pseed = none → ∀ a j, (φ a c).getD j 0 = 0) ∧
      ∀ (m : JPsr → Nat) (N : ∀ p : JPsr, Matrix (Fin p.n) (Fin p.n) ℝ) (M : ∀ p : JPsr, Matrix (Fin p.n) (Fin (m p)) ℝ), NoiseIs ps m N M →
        ∃ C, C.PosDef ∧ AreCov ks.length orf (fun c a b i j => ks[c]?.elim 0 fun k => Fourier.shifted k.2.2 k.2.1 (φ a c) (φ b c) (toaAt ms a i) (toaAt ms b j))
            ms ps N C ∧
          likelihood hash svd .sparse orf ps =
            .ok (some (margLog C (Joint.jm JPsr.n m M ps) (Joint.jv JPsr.n (fun p => p.res - p.delays.reduceOption.sum) ps) +
              (ps.map fun p => p.logprior.sum).sum)) := by
  have harr := arrayOf_arrays seeded ks hk ms rng ps hps
  have hlen : (shapes ks).length = ks.length := by simp [shapes]
  have hapt := apt_arrays hash hh orf (shapes_ok ks hk) (.inl (by
    intro e
    rw [e] at hlen
    exact h0 (List.length_eq_zero_iff.1 hlen.symm))) harr hown hd (by rw [hlen]; exact horf)
  obtain ⟨φ, h1, h2⟩ := density_arrays orf harr
  refine ⟨φ, fun c k hkc hp hs a j => ?_, fun m N M hN => ?_⟩
  · rcases h1 a c with ⟨m, g, k', -, -, -, h⟩ | h
    · exact (h k hkc).zero hp hs j
    · rw [h]; simp
  · obtain ⟨C, hC, h3, h4⟩ := h2 (fun c a b i j => ks[c]?.elim 0 fun k => Fourier.shifted k.2.2 k.2.1 (φ a c) (φ b c) (toaAt ms a i) (toaAt ms b j)) (by
      intro c a b m m' g g' k hkc hm hm' _ _ hR hR' i j hi hj
      rw [shapes, List.getElem?_map] at hkc
      obtain ⟨k', hk', -⟩ := Option.map_eq_some_iff.1 hkc
      have hs := hk k' (List.mem_of_getElem? hk')
      rw [hk', Option.elim_some, toaAt_eq hm, toaAt_eq hm']
      exact gw_cross (hR k' hk') (hR' k' hk') hs.len i j hi hj) m N M
    rw [hlen] at h3
    exact ⟨C, hC ▸ cov_posDef hash orf ps hapt m N M hN, h3, by rw [C107_sparse hash svd _ ps hapt m N M hN, h4]⟩

/-! ## Power laws -/

/-- A common process with a power law: the arguments of `FourierBasisCommonGP(powerlaw(log10_A, gamma), ...)` and its time span. -/
structure Plaw where
  args : Bases.Args
  combine : Bool := true
  A : ℝ
  γ : ℝ
  T : ℝ

/-- The class. -/
noncomputable def Plaw.common (k : Plaw) : Common × ℝ := (⟨k.args, k.combine, fun f => Spectra.powerlaw f k.A k.γ 2⟩, k.T)

/-- Harmonics of a positive time span, without shifted phases. -/
structure Plaw.Usual (k : Plaw) : Prop where
  plain : Bases.Plain k.args
  pshift : k.args.pshift = false
  pseed : k.args.pseed = none
  modes : k.args.nmodes ≠ 0
  span : 0 < k.T

/-- The covariance of the waves of the process. -/
noncomputable def Plaw.cov (k : Plaw) (t t' : ℝ) : ℝ :=
  ∑ n ∈ range k.args.nmodes, Fourier.plaw k.A k.γ k.T n * Real.cos (2 * Real.pi * (((n : ℝ) + 1) / k.T) * (t - t'))

/-- Frequencies and variances. -/
noncomputable def Plaw.full (k : Plaw) : (Common × ℝ) × List ℝ × List ℝ :=
  (k.common, Bases.harmonics k.args.nmodes k.T, (List.range k.args.nmodes).map (Fourier.plaw k.A k.γ k.T))

theorem Plaw.spec {k : Plaw} (h : k.Usual) : Spec k.full.1.1 k.full.1.2 k.full.2.1 k.full.2.2 where
  nonempty := by
    intro e
    have : k.args.nmodes = 0 := by
      have := congrArg List.length e
      simpa [Plaw.full, Bases.harmonics] using this
    exact h.modes this
  freqs := by
    intro toas
    obtain ⟨a1, a2, a3, a4⟩ := h.plain
    unfold Bases.freqs
    simp only [Bases.tspan, bind, Except.bind, Plaw.full, Plaw.common, a1, a2, a3, a4, and_self, if_true]
  spectrum := Fourier.powerlaw_harmonics k.A k.γ k.args.nmodes k.T h.span
  len := by simp [Plaw.full, Bases.harmonics]
  pos := by
    intro x hx
    obtain ⟨j, -, rfl⟩ := List.mem_map.1 hx
    exact Fourier.plaw_pos k.A k.γ k.T h.span j

theorem gw_entry {k : Plaw} (h : k.Usual) {toas : List ℝ} {g : GSig} {φ : List ℝ} (hg : GwAt k.full.1.1 k.full.2.1 k.full.2.2 toas g φ) (p i : Nat)
    (hp : p < 2 * k.args.nmodes) (hi : i < toas.length) :
    (g.basisAt.getD p fun _ => 0) i = (Bases.row (toas.getD i 0) (Bases.harmonics k.args.nmodes k.T) (List.replicate k.args.nmodes 0)).getD p 0 := by
  have hfl : k.full.2.1.length = k.args.nmodes := by simp [Plaw.full, Bases.harmonics]
  have hφ : φ = List.replicate k.args.nmodes 0 := by
    apply List.ext_getElem
    · rw [hg.phase, hfl, List.length_replicate]
    · intro j hj1 hj2
      have := hg.zero h.pshift h.pseed j
      rw [List.getD_eq_getElem?_getD, List.getElem?_eq_getElem hj1] at this
      rw [List.getElem_replicate]
      exact this
  have := hg.entry p i (by rw [hfl]; exact hp) hi
  rw [hφ] at this
  exact this

theorem plaw_nodup {k : Plaw} (h : k.Usual) {toas : List ℝ} {g : GSig} {φ : List ℝ} (hg : GwAt k.full.1.1 k.full.2.1 k.full.2.2 toas g φ)
    (hd : DistinctAt k.args.nmodes k.T toas) : g.basisAt.Nodup := by
  rw [List.nodup_iff_injective_get]
  intro c c' hcc
  by_contra hne
  have hlen : g.basisAt.length = 2 * k.args.nmodes := by
    have : g.basisAt.length = _ := hg.alike.len
    rw [this, Bases.rep_length]
    simp [Plaw.full]
  have hc1 : c.1 < 2 * k.args.nmodes := by rw [← hlen]; exact c.2
  have hc2 : c'.1 < 2 * k.args.nmodes := by rw [← hlen]; exact c'.2
  obtain ⟨t, ht, hrow⟩ := hd c.1 c'.1 hc1 hc2 fun e => hne (Fin.ext e)
  obtain ⟨i, hi, rfl⟩ := List.getElem_of_mem ht
  have e1 := gw_entry h hg c.1 i hc1 hi
  have e2 := gw_entry h hg c'.1 i hc2 hi
  have ei : toas.getD i 0 = toas[i] := by rw [List.getD_eq_getElem?_getD, List.getElem?_eq_getElem hi]; rfl
  rw [ei] at e1 e2
  apply hrow
  rw [← e1, ← e2]
  have g1 : (g.basisAt.getD c.1 fun _ => 0) = g.basisAt.get c := by
    rw [List.getD_eq_getElem?_getD, List.getElem?_eq_getElem c.2]; rfl
  have g2 : (g.basisAt.getD c'.1 fun _ => 0) = g.basisAt.get c' := by
    rw [List.getD_eq_getElem?_getD, List.getElem?_eq_getElem c'.2]; rfl
  rw [g1, g2, hcc]

theorem plaws_arrays (seeded : Int → Bases.Rng) (ks : List Plaw) (hu : ∀ k ∈ ks, k.Usual) (ms : List Member) (rng : Bases.Rng) :
    ∃ ps, arrayOf seeded (ks.map Plaw.common) ms rng = .ok ps ∧ Arrays (shapes (ks.map Plaw.full)) (Known' (ks.map Plaw.full)) ms ps := by
  have hspec : ∀ k ∈ ks.map Plaw.full, Spec k.1.1 k.1.2 k.2.1 k.2.2 ∧ k.1.1.args.pseed = none := by
    intro k hk
    obtain ⟨k, hk', rfl⟩ := List.mem_map.1 hk
    exact ⟨Plaw.spec (hu k hk'), (hu k hk').pseed⟩
  have hfst : (ks.map Plaw.full).map Prod.fst = ks.map Plaw.common := by rw [List.map_map]; rfl
  obtain ⟨ps, hps⟩ := arrayOf_ok seeded (ks.map Plaw.full) hspec ms rng
  refine ⟨ps, by rw [← hfst]; exact hps, arrayOf_arrays seeded _ (fun k hk => (hspec k hk).1) ms rng ps hps⟩

theorem plaws_apt (hash : Col ℝ → H) (hh : Function.Injective hash) (orf : Nat → Pos → Pos → ℝ) (ks : List Plaw)
    (hu : ∀ k ∈ ks, k.Usual) (ms : List Member) (h0 : ks ≠ [] ∨ ∀ m ∈ ms, HasBasis m) (hown : ∀ m ∈ ms, OwnOk m)
    (horf : ∀ c, c < ks.length → (orfMatrix (orf c) fun u : Fin ms.length => (ms[u]).pos).PosDef)
    (hd : ∀ k ∈ ks, k.combine = true → ∀ m ∈ ms, DistinctAt k.args.nmodes k.T m.toas) {ps : List JPsr}
    (h : Arrays (shapes (ks.map Plaw.full)) (Known' (ks.map Plaw.full)) ms ps) : Apt hash orf ps := by
  have hlen : (shapes (ks.map Plaw.full)).length = ks.length := by simp [shapes]
  refine apt_arrays hash hh orf (shapes_ok _ (by
    intro k hk
    obtain ⟨k, hk', rfl⟩ := List.mem_map.1 hk
    exact Plaw.spec (hu k hk'))) (h0.imp_left (by
    intro h0 e
    rw [e] at hlen
    exact h0 (List.length_eq_zero_iff.1 hlen.symm))) h hown (by
    intro p hp g hg hcls hc
    obtain ⟨m, hm, gs, φ, rfl, he⟩ := Fourier.forall₂_right h p hp
    rcases mem_psrs hg with hgm | ⟨b, -, rfl⟩
    · obtain ⟨c, k, -, hkc, ha, hR⟩ := he.get hgm
      rw [shapes, List.map_map, List.getElem?_map] at hkc
      obtain ⟨k', hk', rfl⟩ := Option.map_eq_some_iff.1 hkc
      have hmem := List.mem_of_getElem? hk'
      have hcb : k'.combine = true := by
        have := ha.combine
        rw [hc] at this
        exact this.symm
      exact plaw_nodup (hu k' hmem) (hR k'.full (by rw [List.getElem?_map, hk']; rfl)) (hd k' hmem hcb m hm)
    · exact absurd rfl hcls) (by rw [hlen]; exact horf)

theorem plaws_density (orf : Nat → Pos → Pos → ℝ) (ks : List Plaw) (hu : ∀ k ∈ ks, k.Usual) (ms : List Member) {ps : List JPsr}
    (h : Arrays (shapes (ks.map Plaw.full)) (Known' (ks.map Plaw.full)) ms ps)
    (m : JPsr → Nat) (N : ∀ p : JPsr, Matrix (Fin p.n) (Fin p.n) ℝ) (M : ∀ p : JPsr, Matrix (Fin p.n) (Fin (m p)) ℝ) :
    ∃ C, C = Joint.jm JPsr.n JPsr.n N ps + toMatrix (ps.map JPsr.n).sum (gpCov orf ps) ∧
      AreCov ks.length orf (fun c a b i j => ks[c]?.elim 0 fun k => k.cov (toaAt ms a i) (toaAt ms b j)) ms ps N C ∧
      density orf ps m N M = margLog C (Joint.jm JPsr.n m M ps) (Joint.jv JPsr.n (fun p => p.res - p.delays.reduceOption.sum) ps) := by
  obtain ⟨φ, h1, h2⟩ := density_arrays orf h
  obtain ⟨C, hC, h3, h4⟩ := h2 (fun c a b i j => ks[c]?.elim 0 fun k => k.cov (toaAt ms a i) (toaAt ms b j)) (by
    intro c a b m m' g g' k hkc hm hm' _ _ hR hR' i j hi hj
    rw [shapes, List.map_map, List.getElem?_map] at hkc
    obtain ⟨k', hk', -⟩ := Option.map_eq_some_iff.1 hkc
    have hmem := List.mem_of_getElem? hk'
    have hus := hu k' hmem
    have hR := hR k'.full (by rw [List.getElem?_map, hk']; rfl)
    have hR' := hR' k'.full (by rw [List.getElem?_map, hk']; rfl)
    rw [hk', Option.elim_some, toaAt_eq hm, toaAt_eq hm']
    refine (gw_cross hR hR' (Plaw.spec hus).len i j hi hj).trans ?_
    rw [shifted_zero _ _ _ _ (hR.zero hus.pshift hus.pseed) (hR'.zero hus.pshift hus.pseed)]
    exact wave_power k'.A k'.γ k'.T k'.args.nmodes _ _) m N M
  have hlen : (shapes (ks.map Plaw.full)).length = ks.length := by simp [shapes]
  rw [hlen] at h3
  exact ⟨C, hC, h3, h4⟩

/-- C115: common processes with power laws, for example a Hellings-Downs background, clock errors with `monopole_orf` and ephemeris
errors with `dipole_orf`: between two TOAs the covariance is the sum over the processes of overlap times
`Σ P(k/T)/T cos(2π k (t - t')/T)`, and within a pulsar that of its own noise and processes in addition. -/
theorem C115_powerlaws (hash : Col ℝ → H) (hh : Function.Injective hash) (svd : ∀ {n : Nat} (M : Matrix (Fin n) (Fin n) ℝ), Svd M)
    (seeded : Int → Bases.Rng) (orf : Nat → Pos → Pos → ℝ) (ks : List Plaw) (hu : ∀ k ∈ ks, k.Usual) (ms : List Member)
    (h0 : ks ≠ [] ∨ ∀ m ∈ ms, HasBasis m) (hown : ∀ m ∈ ms, OwnOk m) (horf : ∀ c, c < ks.length → (orfMatrix (orf c) fun u : Fin ms.length => (ms[u]).pos).PosDef)
    (hd : ∀ k ∈ ks, k.combine = true → ∀ m ∈ ms, DistinctAt k.args.nmodes k.T m.toas) (rng : Bases.Rng) :
    ∃ ps, arrayOf seeded (ks.map Plaw.common) ms rng = .ok ps ∧
      ∀ (m : JPsr → Nat) (N : ∀ p : JPsr, Matrix (Fin p.n) (Fin p.n) ℝ) (M : ∀ p : JPsr, Matrix (Fin p.n) (Fin (m p)) ℝ), NoiseIs ps m N M →
        ∃ C, C.PosDef ∧ AreCov ks.length orf (fun c a b i j => ks[c]?.elim 0 fun k => k.cov (toaAt ms a i) (toaAt ms b j)) ms ps N C ∧
          likelihood hash svd .sparse orf ps =
            .ok (some (margLog C (Joint.jm JPsr.n m M ps) (Joint.jv JPsr.n (fun p => p.res - p.delays.reduceOption.sum) ps) +
              (ps.map fun p => p.logprior.sum).sum)) := by
  obtain ⟨ps, hps, harr⟩ := plaws_arrays seeded ks hu ms rng
  have hapt := plaws_apt hash hh orf ks hu ms h0 hown horf hd harr
  refine ⟨ps, hps, fun m N M hN => ?_⟩
  obtain ⟨C, hC, h3, h4⟩ := plaws_density orf ks hu ms harr m N M
  exact ⟨C, hC ▸ cov_posDef hash orf ps hapt m N M hN, h3, by rw [C107_sparse hash svd _ ps hapt m N M hN, h4]⟩

/-- The entries of a row do not depend on the number of modes. -/
theorem row_modes (t T : ℝ) (n n' p : Nat) (h : p < 2 * n) (h' : p < 2 * n') :
    (Bases.row t (Bases.harmonics n T) (List.replicate n 0)).getD p 0 = (Bases.row t (Bases.harmonics n' T) (List.replicate n' 0)).getD p 0 := by
  have hx : ∀ m, p < 2 * m → (Bases.harmonics m T)[p / 2]? = some (1 * (((p / 2 : Nat) : ℝ) + 1) / T) := by
    intro m hm
    rw [Bases.harmonics, List.getElem?_map, List.getElem?_range (by omega)]
    rfl
  have hφ : ∀ m, p < 2 * m → (List.replicate m (0 : ℝ))[p / 2]? = some 0 := by
    intro m hm
    rw [List.getElem?_replicate, if_pos (by omega)]
  have e := Bases.row_get t _ _ (p / 2) _ _ (hx n h) (hφ n h)
  have e' := Bases.row_get t _ _ (p / 2) _ _ (hx n' h') (hφ n' h')
  rw [List.getD_eq_getElem?_getD, List.getD_eq_getElem?_getD]
  rcases Nat.even_or_odd' p with ⟨q, hq | hq⟩
  · have : p = 2 * (p / 2) := by omega
    rw [this, e.1, e'.1]
  · have : p = 2 * (p / 2) + 1 := by omega
    rw [this, e.2, e'.2]

theorem gw_len {k : Plaw} {toas : List ℝ} {g : GSig} {φ : List ℝ} (hg : GwAt k.full.1.1 k.full.2.1 k.full.2.2 toas g φ) :
    g.basisAt.length = 2 * k.args.nmodes := by
  have : g.basisAt.length = _ := hg.alike.len
  rw [this, Bases.rep_length]
  simp [Plaw.full]

/-- Processes with the same time span have the same columns. -/
theorem cols_same {k k' : Plaw} (h : k.Usual) (h' : k'.Usual) (hT : k.T = k'.T) {toas : List ℝ} {g g' : GSig} {φ φ' : List ℝ}
    (hg : GwAt k.full.1.1 k.full.2.1 k.full.2.2 toas g φ) (hg' : GwAt k'.full.1.1 k'.full.2.1 k'.full.2.2 toas g' φ') (p : Nat)
    (hp : p < 2 * k.args.nmodes) (hp' : p < 2 * k'.args.nmodes) : g.basisAt[p]? = g'.basisAt[p]? := by
  have key : (g.basisAt.getD p fun _ => 0) = g'.basisAt.getD p fun _ => 0 := by
    funext i
    by_cases hi : i < toas.length
    · rw [gw_entry h hg p i hp hi, gw_entry h' hg' p i hp' hi, hT, row_modes _ _ _ _ p hp hp']
    · exact (hg.out p i (by omega)).trans (hg'.out p i (by omega)).symm
  have l1 : p < g.basisAt.length := by rw [gw_len hg]; exact hp
  have l2 : p < g'.basisAt.length := by rw [gw_len hg']; exact hp'
  rw [List.getD_eq_getElem?_getD, List.getD_eq_getElem?_getD, List.getElem?_eq_getElem l1, List.getElem?_eq_getElem l2] at key
  rw [List.getElem?_eq_getElem l1, List.getElem?_eq_getElem l2]
  exact congrArg some key

/-- Columns of processes with the same time span are equal only if they are the same column of the basis. -/
theorem cols_inj {k k' : Plaw} (h : k.Usual) (h' : k'.Usual) (hT : k.T = k'.T) {toas : List ℝ} {g g' : GSig} {φ φ' : List ℝ}
    (hg : GwAt k.full.1.1 k.full.2.1 k.full.2.2 toas g φ) (hg' : GwAt k'.full.1.1 k'.full.2.1 k'.full.2.2 toas g' φ')
    (hd : DistinctAt k.args.nmodes k.T toas) (hd' : DistinctAt k'.args.nmodes k'.T toas) (p q : Nat) (hp : p < g.basisAt.length)
    (hq : q < g'.basisAt.length) (he : g.basisAt[p]? = g'.basisAt[q]?) : p = q := by
  have hp' : p < 2 * k.args.nmodes := by rw [← gw_len hg]; exact hp
  have hq' : q < 2 * k'.args.nmodes := by rw [← gw_len hg']; exact hq
  rcases Nat.lt_or_ge q (2 * k.args.nmodes) with hlt | hge
  · rw [← cols_same h h' hT hg hg' q hlt hq'] at he
    exact (List.getElem?_inj hp (plaw_nodup h hg hd)).1 he
  · rw [cols_same h h' hT hg hg' p hp' (by omega)] at he
    exact (List.getElem?_inj (by rw [gw_len hg']; omega) (plaw_nodup h' hg' hd')).1 he

/-- Common processes with one time span that combine their columns share them in the same way in all pulsars. -/
theorem plaws_share (ks : List Plaw) (hu : ∀ k ∈ ks, k.Usual) (hc : ∀ k ∈ ks, k.combine = true) (T : ℝ) (hT : ∀ k ∈ ks, k.T = T)
    (ms : List Member) (hown : ∀ m ∈ ms, OwnOk m) (hvec : ∀ m ∈ ms, ∀ b ∈ m.before ++ m.after, ∃ n v, b.phi = .one n v)
    (hd : ∀ k ∈ ks, ∀ m ∈ ms, DistinctAt k.args.nmodes k.T m.toas) {ps : List JPsr}
    (h : Arrays (shapes (ks.map Plaw.full)) (Known' (ks.map Plaw.full)) ms ps) : SameCols ps := by
  have key : ∀ p ∈ ps, ∃ m ∈ ms, ∀ g ∈ p.gps, (∃ c k φ, k ∈ ks ∧ ks[c]? = some k ∧ AlikeAt c k.combine (Bases.rep 2 k.full.2.2) g ∧
      GwAt k.full.1.1 k.full.2.1 k.full.2.2 m.toas g φ) ∨ ∃ b ∈ m.before ++ m.after, g = ownSig b := by
    intro p hp
    obtain ⟨m, hm, gs, φ, rfl, he⟩ := Fourier.forall₂_right h p hp
    refine ⟨m, hm, fun g hg => ?_⟩
    rcases mem_psrs hg with hgm | hb
    · obtain ⟨c, k, -, hkc, ha, hR⟩ := he.get hgm
      rw [shapes, List.map_map, List.getElem?_map] at hkc
      obtain ⟨k', hk', rfl⟩ := Option.map_eq_some_iff.1 hkc
      exact .inl ⟨c, k', φ c, List.mem_of_getElem? hk', hk', ha, hR k'.full (by rw [List.getElem?_map, hk']; rfl)⟩
    · exact .inr hb
  have key2 : ∀ p ∈ ps, ∃ m ∈ ms, (∀ c k, ks[c]? = some k → ∃ g ∈ p.gps, ∃ φ, AlikeAt c k.combine (Bases.rep 2 k.full.2.2) g ∧
      GwAt k.full.1.1 k.full.2.1 k.full.2.2 m.toas g φ) ∧ ∀ g ∈ p.gps, ∀ c k, ks[c]? = some k → g.cls = some c → ∃ φ,
        GwAt k.full.1.1 k.full.2.1 k.full.2.2 m.toas g φ := by
    intro p hp
    obtain ⟨m, hm, gs, φ, rfl, he⟩ := Fourier.forall₂_right h p hp
    refine ⟨m, hm, fun c k hk => ?_, fun g hg c k hk hcls => ?_⟩
    · have hsh : (shapes (ks.map Plaw.full))[c]? = some (k.combine, Bases.rep 2 k.full.2.2) := by
        rw [shapes, List.map_map, List.getElem?_map, hk]; rfl
      have hlt : c < gs.length := by rw [he.1]; exact (List.getElem?_eq_some_iff.1 hsh).1
      obtain ⟨ha, hR⟩ := he.2 c _ _ (List.getElem?_eq_getElem hlt) hsh
      refine ⟨gs[c], ?_, φ c, ha, hR k.full (by rw [List.getElem?_map, hk]; rfl)⟩
      simp only [Member.psrs, List.mem_append]
      exact .inr (.inl (List.getElem_mem hlt))
    · rcases mem_psrs hg with hgm | ⟨b, -, rfl⟩
      · obtain ⟨c', k', -, hkc, ha, hR⟩ := he.get hgm
        rw [ha.cls] at hcls
        obtain rfl : c' = c := Option.some.inj hcls
        exact ⟨φ c', hR k.full (by rw [List.getElem?_map, hk]; rfl)⟩
      · cases hcls
  refine ⟨fun p hp g hg _ => ?_, fun p hp g hg => ?_, fun p hp g hg hcl => ?_, ?_⟩
  · obtain ⟨m, hm, hall⟩ := key p hp
    rcases hall g hg with ⟨c, k, φ, -, -, ha, -⟩ | ⟨b, hb, rfl⟩
    · exact ⟨_, _, ha.prior⟩
    · exact hvec m hm b hb
  · obtain ⟨m, hm, hall⟩ := key p hp
    rcases hall g hg with ⟨c, k, φ, -, -, ha, -⟩ | ⟨b, hb, rfl⟩
    · exact ha.fixed
    · exact (hown m hm b hb).1
  · obtain ⟨m, hm, hall⟩ := key p hp
    rcases hall g hg with ⟨c, k, φ, hk, -, ha, -⟩ | ⟨b, hb, rfl⟩
    · rw [ha.combine, hc k hk]
    · exact absurd rfl hcl
  · intro p hp p' hp' c c' g g' x hg hg' hx _ _ _ gc gc' xc a b la lb he
    obtain ⟨m, hm, hall⟩ := key p hp
    obtain ⟨m2, hm2, -, hof⟩ := key2 p hp
    have hkc : ∀ y ∈ p.gps, ∀ d, y.cls = some d → ∃ k φ, k ∈ ks ∧ ks[d]? = some k ∧ GwAt k.full.1.1 k.full.2.1 k.full.2.2 m.toas y φ := by
      intro y hy d hd'
      rcases hall y hy with ⟨d', k, φ, hk, hkd, ha, hG⟩ | ⟨b, -, rfl⟩
      · rw [ha.cls] at hd'
        obtain rfl : d' = d := Option.some.inj hd'
        exact ⟨k, φ, hk, hkd, hG⟩
      · cases hd'
    obtain ⟨k, φ, hk, hkc1, hG⟩ := hkc g hg c gc
    obtain ⟨k', φ', hk', hkc2, hG'⟩ := hkc g' hg' c' gc'
    obtain rfl : a = b := cols_inj (hu k hk) (hu k' hk') ((hT k hk).trans (hT k' hk').symm) hG hG' (hd k hk m hm) (hd k' hk' m hm) a b la lb he
    obtain ⟨m', hm', hex, hof'⟩ := key2 p' hp'
    obtain ⟨y, hy, ψ, ya, yG⟩ := hex c' k' hkc2
    obtain ⟨χ, xG⟩ := hof' x hx c k hkc1 xc
    exact ⟨y, hy, by rw [ya.basis]; simp, ya.cls,
      cols_same (hu k' hk') (hu k hk) ((hT k' hk').trans (hT k hk).symm) yG xG a (by rw [← gw_len hG']; exact lb) (by rw [← gw_len hG]; exact la)⟩

/-- C115: with the default method, for common processes that combine their columns and have one time span, and own processes with
vector priors. -/
theorem C115_cliques (hash : Col ℝ → H) (hh : Function.Injective hash) (svd : ∀ {n : Nat} (M : Matrix (Fin n) (Fin n) ℝ), Svd M)
    (seeded : Int → Bases.Rng) (orf : Nat → Pos → Pos → ℝ) (ks : List Plaw) (hu : ∀ k ∈ ks, k.Usual)
    (hc : ∀ k ∈ ks, k.combine = true) (T : ℝ) (hT : ∀ k ∈ ks, k.T = T) (ms : List Member) (h0 : ks ≠ [] ∨ ∀ m ∈ ms, HasBasis m)
    (hown : ∀ m ∈ ms, OwnOk m) (hvec : ∀ m ∈ ms, ∀ b ∈ m.before ++ m.after, ∃ n v, b.phi = .one n v)
    (horf : ∀ c, c < ks.length → (orfMatrix (orf c) fun u : Fin ms.length => (ms[u]).pos).PosDef)
    (hd : ∀ k ∈ ks, ∀ m ∈ ms, DistinctAt k.args.nmodes k.T m.toas) (rng : Bases.Rng) :
    ∃ ps, arrayOf seeded (ks.map Plaw.common) ms rng = .ok ps ∧
      ∀ (m : JPsr → Nat) (N : ∀ p : JPsr, Matrix (Fin p.n) (Fin p.n) ℝ) (M : ∀ p : JPsr, Matrix (Fin p.n) (Fin (m p)) ℝ), NoiseIs ps m N M →
        ∃ C, C.PosDef ∧ AreCov ks.length orf (fun c a b i j => ks[c]?.elim 0 fun k => k.cov (toaAt ms a i) (toaAt ms b j)) ms ps N C ∧
          likelihood hash svd .cliques orf ps =
            .ok (some (margLog C (Joint.jm JPsr.n m M ps) (Joint.jv JPsr.n (fun p => p.res - p.delays.reduceOption.sum) ps) +
              (ps.map fun p => p.logprior.sum).sum)) := by
  obtain ⟨ps, hps, harr⟩ := plaws_arrays seeded ks hu ms rng
  have hapt := plaws_apt hash hh orf ks hu ms h0 hown horf (fun k hk _ => hd k hk) harr
  have hsh := plaws_share ks hu hc T hT ms hown hvec hd harr
  refine ⟨ps, hps, fun m N M hN => ?_⟩
  obtain ⟨C, hC, h3, h4⟩ := plaws_density orf ks hu ms harr m N M
  exact ⟨C, hC ▸ cov_posDef hash orf ps hapt m N M hN, h3, by rw [C107_cliques hash svd _ ps hapt hsh m N M hN, h4]⟩

/-- A background and clock errors, of one and of two modes. -/
noncomputable def exTwo : List Plaw := [⟨{ nmodes := 1 }, true, -14, 13 / 3, 4⟩, ⟨{ nmodes := 1 }, true, -13, 2, 4⟩]

/-- Overlaps of the two. -/
noncomputable def exOrf (c : Nat) : Pos → Pos → ℝ := if c = 0 then Orf.hdOrf else Orf.monopoleOrf

/-- The two pulsars of `Props/Gwb` with a background and clock errors. -/
example (hash : Col ℝ → H) (hh : Function.Injective hash) (svd : ∀ {n : Nat} (M : Matrix (Fin n) (Fin n) ℝ), Svd M) (seeded : Int → Bases.Rng)
    (rng : Bases.Rng) :
    ∃ ps, arrayOf seeded (exTwo.map Plaw.common) [exA, exB] rng = .ok ps ∧
      ∃ C, C.PosDef ∧ AreCov 2 exOrf (fun c a b i j => exTwo[c]?.elim 0 fun k => k.cov (toaAt [exA, exB] a i) (toaAt [exA, exB] b j)) [exA, exB] ps
          (fun p => Matrix.diagonal fun _ => 1) C ∧
        likelihood hash svd .cliques exOrf ps =
          .ok (some (margLog C (Joint.jm JPsr.n (fun _ => 0) (fun _ => 0) ps) (Joint.jv JPsr.n (fun p => p.res - p.delays.reduceOption.sum) ps) +
            (ps.map fun p => p.logprior.sum).sum)) := by
  have mem : ∀ m ∈ [exA, exB], m = exA ∨ m = exB := by
    intro m hm
    simpa using hm
  have memk : ∀ k ∈ exTwo, k = ⟨{ nmodes := 1 }, true, -14, 13 / 3, 4⟩ ∨ k = ⟨{ nmodes := 1 }, true, -13, 2, 4⟩ := by
    intro k hk
    simpa [exTwo] using hk
  have sig : ∀ m ∈ [exA, exB], ∀ b ∈ m.before ++ m.after, b = exSig := by
    intro m hm b hb
    rcases mem m hm with rfl | rfl
    · simp [exA] at hb
    · simpa [exB] using hb
  have hinj : Function.Injective fun u : Fin [exA, exB].length => ([exA, exB][u]).pos := by
    have hne : exA.pos ≠ exB.pos := by
      intro h
      have := congrFun h 0
      simp [exA, exB] at this
    intro u v huv
    have two : ∀ w : Fin 2, w = 0 ∨ w = 1 := by decide
    rcases two u with rfl | rfl <;> rcases two v with rfl | rfl
    · rfl
    · exact absurd huv hne
    · exact absurd huv.symm hne
    · rfl
  obtain ⟨ps, h1, h2⟩ := C115_cliques hash hh svd seeded exOrf exTwo (by
      intro k hk
      rcases memk k hk with rfl | rfl <;> exact ⟨⟨rfl, rfl, rfl, rfl⟩, rfl, rfl, by simp, by norm_num⟩) (by
      intro k hk
      rcases memk k hk with rfl | rfl <;> rfl) 4 (by
      intro k hk
      rcases memk k hk with rfl | rfl <;> rfl) [exA, exB] (.inl (by simp [exTwo])) (by
      intro m hm b hb
      rw [sig m hm b hb]
      refine ⟨rfl, ?_, ?_⟩
      · intro F hF
        have hF : some [fun _ => (1 : ℝ)] = some F := hF
        cases hF
        exact ⟨by simp, rfl, fun _ => rfl, rfl, fun _ _ => by simp⟩
      · intro _
        have : toMatrix 1 (Combine.amat (.one 1 fun _ => (3 : ℝ))) = Matrix.diagonal fun _ => (3 : ℝ) := by
          ext i j
          fin_cases i; fin_cases j
          simp [toMatrix, Combine.amat]
        show (toMatrix 1 (Combine.amat (.one 1 fun _ => (3 : ℝ)))).PosDef
        rw [this]
        exact Matrix.PosDef.diagonal fun _ => by norm_num) (by
      intro m hm b hb
      rw [sig m hm b hb]
      exact ⟨_, _, rfl⟩) (by
      intro c hc
      unfold exOrf
      split
      · refine (Orf.C71_hd_distinct _ (fun u => ?_) hinj).1
        have two : ∀ w : Fin 2, w = 0 ∨ w = 1 := by decide
        rcases two u with rfl | rfl
        · show Orf.IsUnit3 exA.pos
          norm_num [exA, Orf.IsUnit3, Orf.dot, Fin.sum_univ_three]
          rfl
        · show Orf.IsUnit3 exB.pos
          norm_num [exB, Orf.IsUnit3, Orf.dot, Fin.sum_univ_three]
          rfl
      · exact Orf.C71_monopole _ hinj) (by
      intro k hk m hm c c' hc hc' hne
      have hk1 : k.args.nmodes = 1 := by rcases memk k hk with rfl | rfl <;> rfl
      rw [hk1] at hc hc' ⊢
      have h0 : (0 : ℝ) ∈ m.toas := by
        rcases mem m hm with rfl | rfl <;> simp [exA, exB]
      refine ⟨0, h0, ?_⟩
      have : c = 0 ∧ c' = 1 ∨ c = 1 ∧ c' = 0 := by omega
      rcases this with ⟨rfl, rfl⟩ | ⟨rfl, rfl⟩ <;> simp [Bases.row, Bases.harmonics]) rng
  refine ⟨ps, h1, h2 (fun _ => 0) (fun p => Matrix.diagonal fun _ => 1) (fun _ => 0) ?_⟩
  intro p hp
  obtain ⟨ps', h3, harr⟩ := plaws_arrays seeded exTwo (by
      intro k hk
      rcases memk k hk with rfl | rfl <;> exact ⟨⟨rfl, rfl, rfl, rfl⟩, rfl, rfl, by simp, by norm_num⟩) [exA, exB] rng
  obtain rfl : ps = ps' := by
    rw [h1] at h3
    exact Except.ok.inj h3
  obtain ⟨m, hm, gs, φ, rfl, -⟩ := Fourier.forall₂_right harr p hp
  have key : ∀ n : Nat, ∃ o, getNdiag ([some (.base (.arr fun _ : Fin n => (1 : ℝ)))] : List (Option (Nmat n ℝ))).reduceOption = .ok o ∧
      Whole o (Matrix.diagonal fun _ => 1) (0 : Matrix (Fin n) (Fin 0) ℝ) fun _ => True := fun n =>
    ⟨.base (.arr fun _ => 1), rfl, whole_base (arr_exact (fun _ : Fin n => (1 : ℝ)) fun _ => one_pos) 0⟩
  rcases mem m hm with rfl | rfl
  · exact key 2
  · exact key 1

end Verif.Background
