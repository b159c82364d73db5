import Verif.Lemmas.Split
import Verif.Props.Continuous
import Verif.Props.Reduced
import Verif.Props.TmBasis
import Verif.Model.Interp

/-!
# Dropping TOAs

C139: the likelihood of an array from which TOAs are dropped is the likelihood of all TOAs integrated over the residuals that are dropped, and the two differ by the predictive density of those, as long as the epochs of ECORR remain; it is not when an epoch is cut.
-/

namespace Verif.Dropped

open Verif Verif.Likelihood Verif.Noise Verif.Combine Verif.Joined Verif.Standard Verif.Background Verif.StdArray Verif.Limit Verif.Truth
open Verif.Split Verif.Quantize Matrix
open MeasureTheory (Integrable)
open Verif.Orf (Pos orfMatrix)
open Verif.Partition (Svd)

/-! ## What remains of a pulsar -/

/-- The masks of the TOAs `f 0, ..., f (n - 1)`: each mask is restricted to them, one without any of them may be missing. -/
inductive Cut (f : Nat → Nat) (n : Nat) : Dict String Mask → Dict String Mask → Prop
  | nil : Cut f n [] []
  | keep {k : String} {m m' : Mask} {t t' : Dict String Mask} : (∀ i < n, InMask m' i ↔ InMask m (f i)) → Cut f n t t' → Cut f n ((k, m) :: t) ((k, m') :: t')
  | drop {k : String} {m : Mask} {t t' : Dict String Mask} : (∀ i < n, ¬ InMask m (f i)) → Cut f n t t' → Cut f n ((k, m) :: t) t'

/-- The process has the same arguments, with a given time span, and the same parameters. -/
structure SameProc (f : Nat → Nat) (n : Nat) (g g' : PowerGP) : Prop where
  chrom : g'.chrom = g.chrom
  args : g'.args = g.args
  span : g.args.Tspan ≠ none
  now : g'.now = g.now
  masks : Cut f n g.masks g'.masks

/-- `d'` is the pulsar `d` with the TOAs `f 0, f 1, ...` only, and the same parameters. -/
structure Kept (f : Nat → Nat) (d d' : Std) : Prop where
  lt : ∀ i < d'.toas.length, f i < d.toas.length
  inj : ∀ i < d'.toas.length, ∀ j < d'.toas.length, f i = f j → i = j
  toas : ∀ i < d'.toas.length, d'.toas.getD i 0 = d.toas.getD (f i) 0
  nu : ∀ i < d'.toas.length, d'.nu.getD i 0 = d.nu.getD (f i) 0
  errs : ∀ i < d'.toas.length, d'.errs.getD i 0 = d.errs.getD (f i) 0
  pos : d'.pos = d.pos
  white : d'.white = d.white
  masks : Cut f d'.toas.length d.masks d'.masks
  dt : d'.dt = d.dt
  ecorr : d'.log10Ecorr = d.log10Ecorr
  emasks : Cut f d'.toas.length d.emasks d'.emasks
  procs : List.Forall₂ (SameProc f d'.toas.length) d.procs d'.procs
  marg : d'.marg = d.marg
  cols : d'.tm.1 = d.tm.1
  tm : d.marg = false → ∀ i < d'.toas.length, ∀ c < d.tm.1, spanned d'.tm.2 i c = spanned d.tm.2 (f i) c
  delays : ∀ (i : Nat) (h : i < d'.toas.length) (h' : f i < d.toas.length), d'.delays.reduceOption.sum ⟨i, h⟩ = d.delays.reduceOption.sum ⟨f i, h'⟩

/-- Every epoch of ECORR of which a TOA is kept keeps a TOA at its first time, and two TOAs if it has two. -/
def KeepsEpochs (f : Nat → Nat) (d d' : Std) : Prop :=
  ∀ km ∈ d.emasks, ∀ R, Starts (maskTimes d.toas km.2) R d.dt → ∀ r ∈ R, (∃ i < d'.toas.length, Within d.toas d.dt km.2 r (f i)) →
    (∃ i < d'.toas.length, InMask km.2 (f i) ∧ d.toas.getD (f i) 0 = r) ∧
    ((∃ x y, x ≠ y ∧ Within d.toas d.dt km.2 r x ∧ Within d.toas d.dt km.2 r y) →
      ∃ x < d'.toas.length, ∃ y < d'.toas.length, x ≠ y ∧ Within d.toas d.dt km.2 r (f x) ∧ Within d.toas d.dt km.2 r (f y))

/-- The TOAs of the epochs that are not dropped as a whole are all kept. -/
def WholeEpochs (f : Nat → Nat) (d d' : Std) : Prop :=
  ∀ km ∈ d.emasks, ∀ R, Starts (maskTimes d.toas km.2) R d.dt → ∀ r ∈ R, ∀ i < d'.toas.length, Within d.toas d.dt km.2 r (f i) →
    ∀ x, Within d.toas d.dt km.2 r x → ∃ j < d'.toas.length, f j = x

section Masks

variable {f : Nat → Nat} {n : Nat} {ms ms' : Dict String Mask}

theorem Cut.back (h : Cut f n ms ms') : ∀ km' ∈ ms', ∃ km ∈ ms, km.1 = km'.1 ∧ ∀ i < n, InMask km'.2 i ↔ InMask km.2 (f i) := by
  induction h with
  | nil => intro km' h; cases h
  | keep h1 _ ih =>
    intro km' h
    rcases List.mem_cons.1 h with rfl | h
    · exact ⟨_, List.mem_cons_self, rfl, h1⟩
    · obtain ⟨km, h2, h3⟩ := ih km' h
      exact ⟨km, List.mem_cons_of_mem _ h2, h3⟩
  | drop _ _ ih =>
    intro km' h
    obtain ⟨km, h2, h3⟩ := ih km' h
    exact ⟨km, List.mem_cons_of_mem _ h2, h3⟩

theorem Cut.forth (h : Cut f n ms ms') : ∀ km ∈ ms, ∀ i < n, InMask km.2 (f i) →
    ∃ km' ∈ ms', km.1 = km'.1 ∧ ∀ i < n, InMask km'.2 i ↔ InMask km.2 (f i) := by
  induction h with
  | nil => intro km h; cases h
  | keep h1 _ ih =>
    intro km h i hi hm
    rcases List.mem_cons.1 h with rfl | h
    · exact ⟨_, List.mem_cons_self, rfl, h1⟩
    · obtain ⟨km', h2, h3⟩ := ih km h i hi hm
      exact ⟨km', List.mem_cons_of_mem _ h2, h3⟩
  | drop h1 _ ih =>
    intro km h i hi hm
    rcases List.mem_cons.1 h with rfl | h
    · exact absurd hm (h1 i hi)
    · exact ih km h i hi hm

theorem Cut.sum (h : Cut f n ms ms') {i j : Nat} (hi : i < n) (hj : j < n) (F F' : String → ℝ) (hF : ∀ km' ∈ ms', F' km'.1 = F km'.1) :
    (ms'.map fun km => if InMask km.2 i ∧ InMask km.2 j then F' km.1 else 0).sum =
      (ms.map fun km => if InMask km.2 (f i) ∧ InMask km.2 (f j) then F km.1 else 0).sum := by
  classical
  induction h with
  | nil => rfl
  | keep h1 _ ih =>
    simp only [List.map_cons, List.sum_cons, h1 i hi, h1 j hj]
    rw [ih fun km' h => hF km' (List.mem_cons_of_mem _ h)]
    rw [hF _ List.mem_cons_self]
  | drop h1 _ ih =>
    simp only [List.map_cons, List.sum_cons, h1 i hi]
    simpa using ih hF

end Masks

/-! ## Epochs -/

theorem starts_exist {V : Set ℝ} (hV : V.Finite) {dt : ℝ} (hdt : 0 < dt) : ∃ R, Starts V R dt := by
  classical
  obtain ⟨s, rfl⟩ := hV.exists_finset_coe
  induction s using Finset.strongInduction with
  | H s ih =>
    rcases s.eq_empty_or_nonempty with rfl | hs
    · exact ⟨∅, by simp, by simp, by simp⟩
    · set m := s.min' hs with hm
      have hss : s.filter (m + dt ≤ ·) ⊂ s := by
        refine Finset.filter_ssubset.2 ⟨m, Finset.min'_mem _ _, by linarith⟩
      obtain ⟨R, h⟩ := ih _ hss (Finset.finite_toSet _)
      have hR : ∀ r ∈ R, r ∈ s ∧ m + dt ≤ r := fun r hr => by simpa using h.sub hr
      refine ⟨insert m R, ?_, ?_, ?_⟩
      · rintro r (rfl | hr)
        · exact Finset.min'_mem _ _
        · exact (hR r hr).1
      · rintro r (rfl | hr) r' (rfl | hr') hlt
        · exact absurd hlt (lt_irrefl _)
        · exact (hR r' hr').2
        · linarith [(hR r hr).2]
        · exact h.apart r hr r' hr' hlt
      · intro t ht
        by_cases hc : m + dt ≤ t
        · obtain ⟨r, hr, h1⟩ := h.cover t (by simpa using ⟨ht, hc⟩)
          exact ⟨r, .inr hr, h1⟩
        · exact ⟨m, .inl rfl, Finset.min'_le _ _ ht, not_le.1 hc⟩

theorem times_finite (toas : List ℝ) (m : Mask) : (maskTimes toas m).Finite := by
  refine ((Set.finite_lt_nat m.length).image fun x => toas.getD x 0).subset ?_
  rintro t ⟨x, hx, rfl⟩
  refine ⟨x, ?_, rfl⟩
  by_contra hc
  rw [InMask, List.getElem?_eq_none (by simpa using hc)] at hx
  cases hx

section Kept

variable {f : Nat → Nat} {d d' : Std}

/-- The epochs of the TOAs that are kept. -/
theorem together_iff (hk : Kept f d d') (hdt : 0 < d.dt) (hlen : ∀ km ∈ d'.emasks, km.2.length = d'.toas.length) (he : KeepsEpochs f d d')
    {i j : Nat} (hi : i < d'.toas.length) (hj : j < d'.toas.length) :
    (∃ km ∈ d'.emasks, Together d'.toas d'.dt km.2 i j) ↔ ∃ km ∈ d.emasks, Together d.toas d.dt km.2 (f i) (f j) := by
  have hlt : ∀ km ∈ d'.emasks, ∀ x, InMask km.2 x → x < d'.toas.length := by
    intro km hkm x hx
    by_contra hc
    rw [InMask, List.getElem?_eq_none (by rw [hlen km hkm]; omega)] at hx
    cases hx
  have hwith : ∀ {km km' : String × Mask}, km' ∈ d'.emasks → (∀ i < d'.toas.length, InMask km'.2 i ↔ InMask km.2 (f i)) → ∀ r x,
      Within d'.toas d'.dt km'.2 r x ↔ x < d'.toas.length ∧ Within d.toas d.dt km.2 r (f x) := by
    intro km km' hm' h r x
    constructor
    · rintro ⟨h1, h2, h3⟩
      have hx := hlt _ hm' _ h1
      rw [hk.toas x hx, hk.dt] at h3
      rw [hk.toas x hx] at h2
      exact ⟨hx, (h x hx).1 h1, h2, h3⟩
    · rintro ⟨hx, h1, h2, h3⟩
      exact ⟨(h x hx).2 h1, by rwa [hk.toas x hx], by rwa [hk.toas x hx, hk.dt]⟩
  have hst : ∀ {km km' : String × Mask}, km ∈ d.emasks → km' ∈ d'.emasks → (∀ i < d'.toas.length, InMask km'.2 i ↔ InMask km.2 (f i)) → ∀ R,
      Starts (maskTimes d.toas km.2) R d.dt → Starts (maskTimes d'.toas km'.2) (R ∩ maskTimes d'.toas km'.2) d'.dt := by
    intro km km' hm hm' h R hR
    refine ⟨Set.inter_subset_right, fun r hr r' hr' hlt => by rw [hk.dt]; exact hR.apart r hr.1 r' hr'.1 hlt, ?_⟩
    rintro t ⟨x, hx, rfl⟩
    have hxn := hlt _ hm' _ hx
    obtain ⟨r, hr, h1, h2⟩ := hR.cover (d.toas.getD (f x) 0) ⟨f x, (h x hxn).1 hx, rfl⟩
    obtain ⟨⟨y, hy, hym, hyr⟩, -⟩ := he km hm R hR r hr ⟨x, hxn, (h x hxn).1 hx, h1, h2⟩
    refine ⟨r, ⟨hr, y, (h y hy).2 hym, by rw [hk.toas y hy, hyr]⟩, by rwa [hk.toas x hxn], by rwa [hk.toas x hxn, hk.dt]⟩
  constructor
  · rintro ⟨km', hm', R', hR', r, hr, h1, h2, x, y, hxy, h3, h4⟩
    obtain ⟨km, hm, -, hmi⟩ := hk.emasks.back km' hm'
    obtain ⟨R, hR⟩ := starts_exist (times_finite d.toas km.2) hdt
    obtain rfl := starts_unique (times_finite _ _) hR' (hst hm hm' hmi R hR)
    have hw := hwith (km := km) hm' hmi r
    exact ⟨km, hm, R, hR, r, hr.1, ((hw i).1 h1).2, ((hw j).1 h2).2, f x, f y,
      fun h => hxy (hk.inj x ((hw x).1 h3).1 y ((hw y).1 h4).1 h), ((hw x).1 h3).2, ((hw y).1 h4).2⟩
  · rintro ⟨km, hm, R, hR, r, hr, h1, h2, hxy⟩
    obtain ⟨km', hm', -, hmi⟩ := hk.emasks.forth km hm i hi h1.1
    have hw := hwith (km := km) hm' hmi r
    obtain ⟨⟨z, hz, hzm, hzr⟩, h3⟩ := he km hm R hR r hr ⟨i, hi, h1⟩
    obtain ⟨x, hx, y, hy, hne, h4, h5⟩ := h3 hxy
    exact ⟨km', hm', _, hst hm hm' hmi R hR, r, ⟨hr, z, (hmi z hz).2 hzm, by rw [hk.toas z hz, hzr]⟩, (hw i).2 ⟨hi, h1⟩, (hw j).2 ⟨hj, h2⟩,
      x, y, hne, (hw x).2 ⟨hx, h4⟩, (hw y).2 ⟨hy, h5⟩⟩

theorem whole_keeps (hk : Kept f d d') (h : WholeEpochs f d d') : KeepsEpochs f d d' := by
  rintro km hm R hR r hr ⟨i, hi, hw⟩
  constructor
  · obtain ⟨x, hx, hxr⟩ := hR.sub hr
    have hlt : r < r + d.dt := lt_of_le_of_lt hw.2.1 hw.2.2
    obtain ⟨j, hj, rfl⟩ := h km hm R hR r hr i hi hw x ⟨hx, hxr.ge, by rw [hxr]; exact hlt⟩
    exact ⟨j, hj, hx, hxr⟩
  · rintro ⟨x, y, hne, hx, hy⟩
    obtain ⟨j, hj, rfl⟩ := h km hm R hR r hr i hi hw x hx
    obtain ⟨l, hl, rfl⟩ := h km hm R hR r hr i hi hw y hy
    exact ⟨j, hj, l, hl, fun h => hne (by rw [h]), hx, hy⟩

/-! ## The covariance of what remains -/

theorem cov_eq {n : Nat} {g g' : PowerGP} (h : SameProc f n g g') {toas nu toas' nu' : List ℝ} {T T' : String → ℝ}
    (ht : ∀ i < n, toas'.getD i 0 = toas.getD (f i) 0) (hν : ∀ i < n, nu'.getD i 0 = nu.getD (f i) 0) (hu : g.Usual toas T) (hu' : g'.Usual toas' T')
    {i j : Nat} (hi : i < n) (hj : j < n) : g'.cov toas' nu' T' i j = g.cov toas nu T (f i) (f j) := by
  unfold PowerGP.cov
  refine h.masks.sum hi hj (fun k => g.chrom.factor (nu.getD (f i) 0) * g.chrom.factor (nu.getD (f j) 0) *
    ∑ n ∈ Finset.range g.args.nmodes, Fourier.plaw (g.now k).1 (g.now k).2 (T k) n *
      Real.cos (2 * Real.pi * (((n : ℝ) + 1) / T k) * (toas.getD (f i) 0 - toas.getD (f j) 0)))
    (fun k => g'.chrom.factor (nu'.getD i 0) * g'.chrom.factor (nu'.getD j 0) *
    ∑ n ∈ Finset.range g'.args.nmodes, Fourier.plaw (g'.now k).1 (g'.now k).2 (T' k) n *
      Real.cos (2 * Real.pi * (((n : ℝ) + 1) / T' k) * (toas'.getD i 0 - toas'.getD j 0))) fun km' hm' => ?_
  obtain ⟨km, hm, hkey, -⟩ := h.masks.back km' hm'
  have h1 := (hu.span km hm).2
  have h2 := (hu'.span km' hm').2
  have hT : T' km'.1 = T km'.1 := by
    unfold Bases.tspan at h1 h2
    rw [h.args] at h2
    cases hs : g.args.Tspan with
    | none => exact absurd hs h.span
    | some t =>
      rw [hs] at h1 h2
      rw [← hkey, ← Except.ok.inj h1, hkey, ← Except.ok.inj h2]
  simp only [hT, h.chrom, h.args, h.now, ht i hi, ht j hj, hν i hi, hν j hj]

theorem forall_imp_mem {α β : Type} {R S : α → β → Prop} {l : List α} {l' : List β} (h : List.Forall₂ R l l') (hs : ∀ a ∈ l, ∀ b ∈ l', R a b → S a b) :
    List.Forall₂ S l l' := by
  induction h with
  | nil => exact .nil
  | cons h1 _ ih =>
    exact .cons (hs _ List.mem_cons_self _ List.mem_cons_self h1)
      (ih fun a ha b hb => hs a (List.mem_cons_of_mem _ ha) b (List.mem_cons_of_mem _ hb))

theorem sum_of {α β : Type} {l : List α} {l' : List β} {F : α → ℝ} {G : β → ℝ} (h : List.Forall₂ (fun a b => G b = F a) l l') :
    (l'.map G).sum = (l.map F).sum := by
  induction h with
  | nil => rfl
  | cons h1 _ ih => simp only [List.map_cons, List.sum_cons, h1, ih]

/-- Without the part of ECORR. -/
theorem own_eq {seeded : Int → Bases.Rng} {L L' : Labels} (hk : Kept f d d') (ho : d.Ok seeded L) (ho' : d'.Ok seeded L')
    {same same' : Nat → Nat → Bool} (he' : Epoch d'.toas d'.dt d'.emasks same') {i j : Nat}
    (hi : i < d'.toas.length) (hj : j < d'.toas.length) :
    d'.own L' same' i j - (if same' i j = true then ((10 : ℝ) ^ d'.log10Ecorr (L'.ekey i)) ^ 2 else 0) =
      d.own L same (f i) (f j) - (if same (f i) (f j) = true then ((10 : ℝ) ^ d.log10Ecorr (L.ekey (f i))) ^ 2 else 0) := by
  have hkey : L'.key i = L.key (f i) := by
    obtain ⟨km', ⟨h1, h2⟩, -⟩ := ho'.masks.exists_unique i hi
    obtain ⟨km, h3, h4, h5⟩ := hk.masks.back km' h1
    rw [ho'.key km' h1 i h2, ho.key km h3 (f i) ((h5 i hi).1 h2), h4]
  have hproc : (d'.procs.map fun g => g.cov d'.toas d'.nu (L'.T g) i j).sum = (d.procs.map fun g => g.cov d.toas d.nu (L.T g) (f i) (f j)).sum :=
    sum_of (forall_imp_mem hk.procs fun g hg g' hg' h => cov_eq h hk.toas hk.nu (ho.procs g hg).1 (ho'.procs g' hg').1 hi hj)
  have htm : (if d'.marg then 0 else 1e40 * ∑ c : Fin d'.tm.1, spanned d'.tm.2 i c * spanned d'.tm.2 j c : ℝ) =
      if d.marg then 0 else 1e40 * ∑ c : Fin d.tm.1, spanned d.tm.2 (f i) c * spanned d.tm.2 (f j) c := by
    rw [hk.marg]
    cases hm : d.marg with
    | true => rfl
    | false =>
    simp only [Bool.false_eq_true, if_false]
    congr 1
    refine Fintype.sum_equiv (finCongr hk.cols) _ _ fun c => ?_
    have hc : (c : Nat) < d.tm.1 := c.2.trans_eq hk.cols
    rw [hk.tm hm i hi c hc, hk.tm hm j hj c hc]
    rfl
  have hij : (i = j) ↔ (f i = f j) := ⟨fun h => by rw [h], fun h => hk.inj i hi j hj h⟩
  unfold Std.own
  rw [hproc, htm, hkey, hk.white, hk.errs i hi]
  simp only [hij]
  ring

theorem ekey_eq {seeded : Int → Bases.Rng} {L L' : Labels} (hk : Kept f d d') (ho : d.Ok seeded L) (ho' : d'.Ok seeded L') {same' : Nat → Nat → Bool}
    (he' : Epoch d'.toas d'.dt d'.emasks same') {i j : Nat} (hi : i < d'.toas.length) (h : same' i j = true) : L'.ekey i = L.ekey (f i) := by
  obtain ⟨km', h1, h2, -⟩ := he'.near i j h
  obtain ⟨km, h3, h4, h5⟩ := hk.emasks.back km' h1
  rw [ho'.ekey km' h1 i h2, ho.ekey km h3 (f i) ((h5 i hi).1 h2), h4]

end Kept

/-! ## Arrays -/

/-- The rows of the TOAs that are kept: row of TOA `i` of pulsar `a` goes to the row of TOA `f a i`. -/
def Rows (f : Nat → Nat → Nat) (ds ds' : List (Std × Labels)) {N N' k : Nat} (e : Fin N' ⊕ Fin k ≃ Fin N) : Prop :=
  ∀ (a : Nat) (d' : Std × Labels), ds'[a]? = some d' → ∀ i < d'.1.toas.length, ∀ r : Fin N', (r : Nat) = size (ds'.take a) + i →
    (e (.inl r) : Nat) = size (ds.take a) + f a i

/-- Each pulsar keeps some of its TOAs. -/
def KeptAll (f : Nat → Nat → Nat) (ds ds' : List (Std × Labels)) : Prop :=
  ds'.length = ds.length ∧ ∀ (a : Nat) (d d' : Std × Labels), ds[a]? = some d → ds'[a]? = some d' → Kept (f a) d.1 d'.1

theorem concat_at (ds : List (Std × Labels)) : ∀ (a : Nat) (d : Std × Labels), ds[a]? = some d → ∀ (i : Nat) (h : i < d.1.toas.length),
    delaysOf ds (size (ds.take a) + i) = d.1.delays.reduceOption.sum ⟨i, h⟩ := by
  induction ds with
  | nil => intro a d h; cases h
  | cons x t ih =>
    intro a d hd i h
    cases a with
    | zero =>
      obtain rfl : x = d := by simpa using hd
      simp [delaysOf, concatOf, size, h]
    | succ a =>
      have := ih a d (by simpa using hd) i h
      simp only [delaysOf, size, List.take_succ_cons, List.map_cons, List.sum_cons, concatOf] at this ⊢
      rw [dif_neg (by omega), ← this]
      congr 1
      omega

section Arrays

variable {method method' : Method} {seeded : Int → Bases.Rng} {orf : Nat → Pos → Pos → ℝ} {ks : List Plaw} {ds ds' : List (Std × Labels)}
  {f : Nat → Nat → Nat} {N N' k : Nat} {same same' : Nat → Nat → Nat → Bool}

/-- The delays of the rows that are kept. -/
theorem delays_eq (hk : KeptAll f ds ds') (hN' : size ds' = N') {e : Fin N' ⊕ Fin k ≃ Fin N} (he : Rows f ds ds' e) (r : Fin N') :
    delaysOf ds' r = delaysOf ds (e (.inl r)) := by
  obtain ⟨a, d', i, ha, hi, hr⟩ := find ds' r (r.2.trans_eq hN'.symm)
  have hlt : a < ds.length := by rw [← hk.1]; exact (List.getElem?_eq_some_iff.1 ha).1
  have hK := hk.2 a ds[a] d' (List.getElem?_eq_getElem hlt) ha
  rw [he a d' ha i hi r hr, hr, concat_at ds' a d' ha i hi, concat_at ds a ds[a] (List.getElem?_eq_getElem hlt) (f a i) (hK.lt i hi)]
  exact hK.delays i hi _

/-- The covariance of the rows that are kept, without the part of ECORR. -/
theorem entry_eq (h : ∀ d ∈ ds, d.1.Ok seeded d.2) (h' : ∀ d ∈ ds', d.1.Ok seeded d.2) (hk : KeptAll f ds ds') (hN : size ds = N) (hN' : size ds' = N')
    {C : Matrix (Fin N) (Fin N) ℝ} {C' : Matrix (Fin N') (Fin N') ℝ} (hC : IsCov orf ks ds same (C.submatrix (Fin.cast hN) (Fin.cast hN)))
    (hC' : IsCov orf ks ds' same' (C'.submatrix (Fin.cast hN') (Fin.cast hN')))
    (hE' : ∀ a d, ds'[a]? = some d → Epoch d.1.toas d.1.dt d.1.emasks (same' a)) {e : Fin N' ⊕ Fin k ≃ Fin N} (he : Rows f ds ds' e)
    {a b : Nat} {x x' y y' : Std × Labels} (hx : ds[a]? = some x) (hx' : ds'[a]? = some x') (hy : ds[b]? = some y) (hy' : ds'[b]? = some y') {i j : Nat}
    (hi : i < x'.1.toas.length) (hj : j < y'.1.toas.length) {r s : Fin N'} (hr : (r : Nat) = size (ds'.take a) + i) (hs : (s : Nat) = size (ds'.take b) + j) :
    C' r s - (if a = b ∧ same' a i j = true then ((10 : ℝ) ^ x'.1.log10Ecorr (x'.2.ekey i)) ^ 2 else 0) =
      C (e (.inl r)) (e (.inl s)) - (if a = b ∧ same a (f a i) (f b j) = true then ((10 : ℝ) ^ x.1.log10Ecorr (x.2.ekey (f a i))) ^ 2 else 0) := by
  subst hN hN'
  have hK := hk.2 a x x' hx hx'
  have hK' := hk.2 b y y' hy hy'
  have e1 := hC' a b x' y' hx' hy' i j hi hj r s hr hs
  have e2 := hC a b x y hx hy (f a i) (f b j) (hK.lt i hi) (hK'.lt j hj) (e (.inl r)) (e (.inl s)) (he a x' hx' i hi r hr) (he b y' hy' j hj s hs)
  simp only [submatrix_apply, Fin.cast_eq_self] at e1 e2
  rw [e1, e2, hK.pos, hK'.pos, hK.toas i hi, hK'.toas j hj]
  by_cases hab : a = b
  · subst hab
    obtain rfl : x = y := Option.some.inj (hx.symm.trans hy)
    obtain rfl : x' = y' := Option.some.inj (hx'.symm.trans hy')
    have := own_eq (same := same a) hK (h x (List.mem_of_getElem? hx)) (h' x' (List.mem_of_getElem? hx')) (hE' a x' hx') hi hj
    simp only [true_and, if_true]
    linarith
  · simp [hab]

theorem first_eq (h : ∀ d ∈ ds, d.1.Ok seeded d.2) (h' : ∀ d ∈ ds', d.1.Ok seeded d.2) (hk : KeptAll f ds ds') (hN : size ds = N) (hN' : size ds' = N')
    {C : Matrix (Fin N) (Fin N) ℝ} {C' : Matrix (Fin N') (Fin N') ℝ} (hC : IsCov orf ks ds same (C.submatrix (Fin.cast hN) (Fin.cast hN)))
    (hC' : IsCov orf ks ds' same' (C'.submatrix (Fin.cast hN') (Fin.cast hN')))
    (hE : ∀ a d, ds[a]? = some d → Epoch d.1.toas d.1.dt d.1.emasks (same a))
    (hE' : ∀ a d, ds'[a]? = some d → Epoch d.1.toas d.1.dt d.1.emasks (same' a)) {e : Fin N' ⊕ Fin k ≃ Fin N} (he : Rows f ds ds' e)
    (hep : ∀ (a : Nat) (d d' : Std × Labels), ds[a]? = some d → ds'[a]? = some d' → KeepsEpochs (f a) d.1 d'.1) : first C e = C' := by
  ext r s
  obtain ⟨a, x', i, ha, hi, hr⟩ := find ds' r (r.2.trans_eq hN'.symm)
  obtain ⟨b, y', j, hb, hj, hs⟩ := find ds' s (s.2.trans_eq hN'.symm)
  have hlt : a < ds.length := by rw [← hk.1]; exact (List.getElem?_eq_some_iff.1 ha).1
  have hlt' : b < ds.length := by rw [← hk.1]; exact (List.getElem?_eq_some_iff.1 hb).1
  have hx := List.getElem?_eq_getElem hlt
  have hy := List.getElem?_eq_getElem hlt'
  have key := entry_eq h h' hk hN hN' hC hC' hE' he hx ha hy hb hi hj hr hs
  have hK := hk.2 a _ x' hx ha
  have hif : (if a = b ∧ same' a i j = true then ((10 : ℝ) ^ x'.1.log10Ecorr (x'.2.ekey i)) ^ 2 else 0) =
      if a = b ∧ same a (f a i) (f b j) = true then ((10 : ℝ) ^ ds[a].1.log10Ecorr (ds[a].2.ekey (f a i))) ^ 2 else 0 := by
    by_cases hab : a = b
    · subst hab
      obtain rfl : x' = y' := Option.some.inj (ha.symm.trans hb)
      have hox := h ds[a] (List.mem_of_getElem? hx)
      have hox' := h' x' (List.mem_of_getElem? ha)
      have hiff : same' a i j = true ↔ same a (f a i) (f a j) = true :=
        ((hE' a x' ha).exact i j).trans ((together_iff hK hox.dt hox'.elen (hep a _ _ hx ha) hi hj).trans ((hE a _ hx).exact (f a i) (f a j)).symm)
      by_cases hs1 : same' a i j = true
      · rw [if_pos ⟨rfl, hs1⟩, if_pos ⟨rfl, hiff.1 hs1⟩, hK.ecorr, ekey_eq hK hox hox' (hE' a x' ha) hi hs1]
      · rw [if_neg fun h => hs1 h.2, if_neg fun h => hs1 (hiff.2 h.2)]
    · simp [hab]
  rw [hif] at key
  show C (e (.inl r)) (e (.inl s)) = C' r s
  linarith

theorem wide_data {H : Type} [DecidableEq H] (hash : Col ℝ → H) (hh : Function.Injective hash)
    (svd : ∀ {n : Nat} (M : Matrix (Fin n) (Fin n) ℝ), Svd M) (argsort : List ℝ → List Nat) (hsort : ∀ l, Quantize.IsArgsort l (argsort l))
    (h : Reduced.Fit method seeded orf ks ds) {w : Nat} {M : Matrix (Fin N) (Fin w) ℝ} (hM : Reduced.IsColumns ds M) :
    ∃ same : Nat → Nat → Nat → Bool, (∀ a d, ds[a]? = some d → Epoch d.1.toas d.1.dt d.1.emasks (same a)) ∧
      ∃ C : Matrix (Fin N) (Fin N) ℝ, C.PosDef ∧ IsCov orf ks ds same (C.submatrix (Fin.cast hM.rows) (Fin.cast hM.rows)) ∧
        ∀ (y : Fin N → ℝ) (rng : Bases.Rng), ∃ ps, pta argsort seeded (ks.map Plaw.common) ((give ds (out y)).map Prod.fst) rng = .ok ps ∧
          likelihood hash svd method orf ps = .ok (some (margLog C M (y - fun r : Fin N => delaysOf ds r))) := by
  obtain ⟨rfl, rfl, hE⟩ := hM
  obtain rfl : StdArray.columns ds = M := by
    ext i j
    exact hE i j
  exact Truth.data hash hh svd method argsort hsort seeded orf ks h.usual h.suits ds h.some h.ok h.orf h.distinct

theorem columns_inj (h : Reduced.Fit method seeded orf ks ds) {w : Nat} {M : Matrix (Fin N) (Fin w) ℝ} (hM : Reduced.IsColumns ds M) :
    Function.Injective M.mulVec := by
  obtain ⟨rfl, rfl, hE⟩ := hM
  obtain rfl : StdArray.columns ds = M := by
    ext i j
    exact hE i j
  exact Wide.columns_injective h.ok

/-- C139, partial: the likelihood of the array from which TOAs are dropped is the likelihood of the whole array integrated over the residuals that
are dropped, up to `(2π)^(1/2)` for each, whatever the residuals that are kept, if every epoch of ECORR of which a TOA is kept keeps a TOA at its
first time and, if it has two TOAs, two.  Moreover the log-likelihoods differ by the log density of a Gaussian for the residuals that are dropped,
whose mean is their delays and what is predicted from those that are kept.  Missing: epochs that are cut
(`C139_epoch_false`, `C139_merge_false`), columns of a timing model that change (`C139_normed_false`).  For timing models that are marginalized over see
`C139_wide_partial`. -/
theorem C139_marginal_partial {H : Type} [DecidableEq H] (hash : Col ℝ → H) (hh : Function.Injective hash)
    (svd : ∀ {n : Nat} (M : Matrix (Fin n) (Fin n) ℝ), Svd M) (argsort : List ℝ → List Nat) (hsort : ∀ l, Quantize.IsArgsort l (argsort l))
    (h : Fit method seeded orf ks ds) (h' : Fit method' seeded orf ks ds') (hk : KeptAll f ds ds')
    (hep : ∀ (a : Nat) (d d' : Std × Labels), ds[a]? = some d → ds'[a]? = some d' → KeepsEpochs (f a) d.1 d'.1)
    (hN : size ds = N) (hN' : size ds' = N') {e : Fin N' ⊕ Fin k ≃ Fin N} (he : Rows f ds ds' e) :
    ∃ (L : (Fin N → ℝ) → ℝ) (L' : (Fin N' → ℝ) → ℝ),
      (∀ (y : Fin N → ℝ) (rng : Bases.Rng), ∃ ps, pta argsort seeded (ks.map Plaw.common) ((give ds (out y)).map Prod.fst) rng = .ok ps ∧
        likelihood hash svd method orf ps = .ok (some (L y))) ∧
      (∀ (y : Fin N' → ℝ) (rng : Bases.Rng), ∃ ps, pta argsort seeded (ks.map Plaw.common) ((give ds' (out y)).map Prod.fst) rng = .ok ps ∧
        likelihood hash svd method' orf ps = .ok (some (L' y))) ∧
      (∀ y : Fin N' → ℝ, Integrable (fun z : Fin k → ℝ => Real.exp (L (join e y z))) ∧
        ∫ z : Fin k → ℝ, Real.exp (L (join e y z)) = Real.sqrt ((2 * Real.pi) ^ k) * Real.exp (L' y)) ∧
      ∃ (same : Nat → Nat → Nat → Bool) (C : Matrix (Fin N) (Fin N) ℝ), (∀ a d, ds[a]? = some d → Epoch d.1.toas d.1.dt d.1.emasks (same a)) ∧
        C.PosDef ∧ IsCov orf ks ds same (C.submatrix (Fin.cast hN) (Fin.cast hN)) ∧ (left C e).PosDef ∧
        ∀ (y : Fin N' → ℝ) (z : Fin k → ℝ), L (join e y z) = L' y + gaussLog (left C e) ((z - fun r => delaysOf ds (e (.inr r))) -
          (mixed C e)ᵀ *ᵥ ((first C e)⁻¹ *ᵥ (y - fun r => delaysOf ds (e (.inl r))))) := by
  obtain ⟨same, h1, C, h2, h3, h4⟩ := h.data hash hh svd argsort hsort hN
  obtain ⟨same', h1', C', h2', h3', h4'⟩ := h'.data hash hh svd argsort hsort hN'
  have hf := first_eq h.ok h'.ok hk hN hN' h3 h3' h1 h1' he hep
  subst hf
  have hd : (fun r : Fin N' => delaysOf ds' r) = fun r : Fin N' => delaysOf ds (e (.inl r)) := funext fun r => delays_eq hk hN' he r
  rw [hd] at h4'
  refine ⟨_, _, h4, h4', fun y => gauss_marginal h2 e (fun r : Fin N => delaysOf ds r) y, same, C, h1, h2, h3, left_pos h2 e, fun y z => ?_⟩
  rw [join_sub, gauss_split h2]
  rfl

/-- C139, partial: the same with timing models of some or all pulsars marginalized over, if those columns of the TOAs that are kept are those of all
TOAs in another basis, `T`, as they are if the TOAs that are kept determine the timing parameters (`C139_bases`): the likelihoods
differ by the same factor, `(2π)^(1/2)` for each residual that is dropped and the determinant of `T`, whatever the parameters and the residuals that are kept,
and the residuals that are dropped are predicted with the timing model fitted to those that are kept.
Missing: epochs that are cut (`C139_epoch_false`, `C139_merge_false`). -/
theorem C139_wide_partial {H : Type} [DecidableEq H] (hash : Col ℝ → H) (hh : Function.Injective hash)
    (svd : ∀ {n : Nat} (M : Matrix (Fin n) (Fin n) ℝ), Svd M) (argsort : List ℝ → List Nat) (hsort : ∀ l, Quantize.IsArgsort l (argsort l))
    (h : Reduced.Fit method seeded orf ks ds) (h' : Reduced.Fit method' seeded orf ks ds') (hk : KeptAll f ds ds')
    (hep : ∀ (a : Nat) (d d' : Std × Labels), ds[a]? = some d → ds'[a]? = some d' → KeepsEpochs (f a) d.1 d'.1)
    {e : Fin N' ⊕ Fin k ≃ Fin N} (he : Rows f ds ds' e) {w : Nat} {M : Matrix (Fin N) (Fin w) ℝ} {M' : Matrix (Fin N') (Fin w) ℝ}
    (hM : Reduced.IsColumns ds M) (hM' : Reduced.IsColumns ds' M') {T : Matrix (Fin w) (Fin w) ℝ} (hdet : T.det ≠ 0)
    (hT : ∀ r c, M' r c = ∑ b, M (e (.inl r)) b * T b c) :
    ∃ (L : (Fin N → ℝ) → ℝ) (L' : (Fin N' → ℝ) → ℝ),
      (∀ (y : Fin N → ℝ) (rng : Bases.Rng), ∃ ps, pta argsort seeded (ks.map Plaw.common) ((give ds (out y)).map Prod.fst) rng = .ok ps ∧
        likelihood hash svd method orf ps = .ok (some (L y))) ∧
      (∀ (y : Fin N' → ℝ) (rng : Bases.Rng), ∃ ps, pta argsort seeded (ks.map Plaw.common) ((give ds' (out y)).map Prod.fst) rng = .ok ps ∧
        likelihood hash svd method' orf ps = .ok (some (L' y))) ∧
      (∀ y : Fin N' → ℝ, Integrable (fun z : Fin k → ℝ => Real.exp (L (join e y z))) ∧
        ∫ z : Fin k → ℝ, Real.exp (L (join e y z)) = Real.sqrt ((2 * Real.pi) ^ k) * |T.det| * Real.exp (L' y)) ∧
      ∃ (same : Nat → Nat → Nat → Bool) (C : Matrix (Fin N) (Fin N) ℝ), (∀ a d, ds[a]? = some d → Epoch d.1.toas d.1.dt d.1.emasks (same a)) ∧
        C.PosDef ∧ IsCov orf ks ds same (C.submatrix (Fin.cast hM.rows) (Fin.cast hM.rows)) ∧ (leftM C e M).PosDef ∧
        ∀ (y : Fin N' → ℝ) (z : Fin k → ℝ), L (join e y z) = L' y + Real.log |T.det| + gaussLog (leftM C e M) ((z - fun r => delaysOf ds (e (.inr r))) -
          (guess C e (y - fun r => delaysOf ds (e (.inl r))) + tilt C e M *ᵥ fitted C e M (y - fun r => delaysOf ds (e (.inl r))))) := by
  obtain ⟨same, h1, C, h2, h3, h4⟩ := wide_data hash hh svd argsort hsort h hM
  obtain ⟨same', h1', C', h2', h3', h4'⟩ := wide_data hash hh svd argsort hsort h' hM'
  have hf := first_eq h.ok h'.ok hk hM.rows hM'.rows h3 h3' h1 h1' he hep
  subst hf
  have hd : (fun r : Fin N' => delaysOf ds' r) = fun r : Fin N' => delaysOf ds (e (.inl r)) := funext fun r => delays_eq hk hM'.rows he r
  rw [hd] at h4'
  have hMT : M' = rows1 e M * T := by
    ext r c
    rw [hT]
    rfl
  have hu : IsUnit T.det := isUnit_iff_ne_zero.2 hdet
  have hinj' : Function.Injective M'.mulVec := columns_inj h' hM'
  have hinj : Function.Injective (rows1 e M).mulVec := by
    intro x y hxy
    have := @hinj' (T⁻¹ *ᵥ x) (T⁻¹ *ᵥ y) (by
      show M' *ᵥ (T⁻¹ *ᵥ x) = M' *ᵥ (T⁻¹ *ᵥ y)
      rw [hMT, mulVec_mulVec, mulVec_mulVec, Matrix.mul_assoc, mul_nonsing_inv _ hu, Matrix.mul_one]
      exact hxy)
    have h5 := congrArg (T *ᵥ ·) this
    simpa [mulVec_mulVec, mul_nonsing_inv _ hu] using h5
  have hlog : ∀ r, margLog (first C e) (rows1 e M) r = margLog (first C e) M' r + Real.log |T.det| := by
    intro r
    rw [hMT, Interp.margLog_change (first_pos h2 e) hinj hu]
    ring
  refine ⟨_, _, h4, h4', fun y => ?_, same, C, h1, h2, h3, leftM_pos h2 hinj, fun y z => ?_⟩
  · obtain ⟨i1, i2⟩ := marg_marginal h2 hinj (fun r : Fin N => delaysOf ds r) y
    refine ⟨i1, i2.trans ?_⟩
    rw [hlog, Real.exp_add, Real.exp_log (abs_pos.2 hdet)]
    ring
  · rw [join_sub, marg_split h2 hinj, hlog]

/-- Where the epochs of two TOAs that are kept change, the likelihood of what is kept is not the integral. -/
theorem cut_ne {H : Type} [DecidableEq H] (hash : Col ℝ → H) (hh : Function.Injective hash)
    (svd : ∀ {n : Nat} (M : Matrix (Fin n) (Fin n) ℝ), Svd M) (argsort : List ℝ → List Nat) (hsort : ∀ l, Quantize.IsArgsort l (argsort l))
    (h : Fit method seeded orf ks ds) (h' : Fit method' seeded orf ks ds') (hk : KeptAll f ds ds')
    (hN : size ds = N) (hN' : size ds' = N') {e : Fin N' ⊕ Fin k ≃ Fin N} (he : Rows f ds ds' e) {a : Nat} {x x' : Std × Labels} (hx : ds[a]? = some x)
    (hx' : ds'[a]? = some x') {i j : Nat} (hi : i < x'.1.toas.length) (hj : j < x'.1.toas.length)
    (hne : ¬ ((∃ km ∈ x'.1.emasks, Together x'.1.toas x'.1.dt km.2 i j) ↔ ∃ km ∈ x.1.emasks, Together x.1.toas x.1.dt km.2 (f a i) (f a j))) :
    ∃ (L : (Fin N → ℝ) → ℝ) (L' : (Fin N' → ℝ) → ℝ),
      (∀ (y : Fin N → ℝ) (rng : Bases.Rng), ∃ ps, pta argsort seeded (ks.map Plaw.common) ((give ds (out y)).map Prod.fst) rng = .ok ps ∧
        likelihood hash svd method orf ps = .ok (some (L y))) ∧
      (∀ (y : Fin N' → ℝ) (rng : Bases.Rng), ∃ ps, pta argsort seeded (ks.map Plaw.common) ((give ds' (out y)).map Prod.fst) rng = .ok ps ∧
        likelihood hash svd method' orf ps = .ok (some (L' y))) ∧
      ∃ y : Fin N' → ℝ, ∫ z : Fin k → ℝ, Real.exp (L (join e y z)) ≠ Real.sqrt ((2 * Real.pi) ^ k) * Real.exp (L' y) := by
  obtain ⟨same, h1, C, h2, h3, h4⟩ := h.data hash hh svd argsort hsort hN
  obtain ⟨same', h1', C', h2', h3', h4'⟩ := h'.data hash hh svd argsort hsort hN'
  refine ⟨_, _, h4, h4', ?_⟩
  by_contra hc
  push Not at hc
  have hid := identify (first_pos h2 e) h2' (fun r => delaysOf ds (e (.inl r))) (fun r => delaysOf ds' r) fun y => by
    have e1 := hc y
    rw [(gauss_marginal h2 e (fun r : Fin N => delaysOf ds r) y).2] at e1
    exact Real.exp_injective (mul_left_cancel₀ (Real.sqrt_pos.2 (by positivity)).ne' e1)
  have hrow : ∀ i < x'.1.toas.length, size (ds'.take a) + i < N' := by
    intro i hi
    have := List.getElem?_eq_some_iff.1 hx'
    obtain ⟨hlt, hget⟩ := this
    rw [← hN', size, size, ← List.take_append_drop a ds', List.map_append, List.sum_append, List.take_append_drop, List.drop_eq_getElem_cons hlt, hget]
    simp only [List.map_cons, List.sum_cons]
    omega
  have key := entry_eq h.ok h'.ok hk hN hN' h3 h3' h1' he hx hx' hx hx' hi hj (r := ⟨_, hrow i hi⟩) (s := ⟨_, hrow j hj⟩) rfl rfl
  have e2 : C' ⟨_, hrow i hi⟩ ⟨_, hrow j hj⟩ = C (e (.inl ⟨_, hrow i hi⟩)) (e (.inl ⟨_, hrow j hj⟩)) := by
    rw [← hid.1]
    rfl
  rw [e2, sub_right_inj] at key
  refine hne (((h1' a x' hx').exact i j).symm.trans (Iff.trans ?_ ((h1 a x hx).exact (f a i) (f a j))))
  have p1 : ((10 : ℝ) ^ x'.1.log10Ecorr (x'.2.ekey i)) ^ 2 ≠ 0 := by positivity
  have p2 : ((10 : ℝ) ^ x.1.log10Ecorr (x.2.ekey (f a i))) ^ 2 ≠ 0 := by positivity
  by_cases c1 : same' a i j = true <;> by_cases c2 : same a (f a i) (f a j) = true
  · exact ⟨fun _ => c2, fun _ => c1⟩
  · rw [if_pos ⟨rfl, c1⟩, if_neg fun h => c2 h.2] at key
    exact absurd key p1
  · rw [if_neg fun h => c1 h.2, if_pos ⟨rfl, c2⟩] at key
    exact absurd key.symm p2
  · exact ⟨fun h => absurd h c1, fun h => absurd h c2⟩

end Arrays

/-! ## Columns of the TOAs that are kept -/

section Bases

variable {N N' k : Nat} {e : Fin N' ⊕ Fin k ≃ Fin N}

theorem span_change {n p q : Nat} {A : Matrix (Fin n) (Fin p) ℝ} {B : Matrix (Fin n) (Fin q) ℝ} (h : Interp.SameSpan A B)
    (hA : Function.Injective A.mulVec) (hB : Function.Injective B.mulVec) :
    ∃ (D : Matrix (Fin q) (Fin p) ℝ) (E : Matrix (Fin p) (Fin q) ℝ), A = B * D ∧ B = A * E ∧ D * E = 1 ∧ E * D = 1 ∧ p = q := by
  obtain ⟨D, hD⟩ := Interp.sameSpan_change h
  obtain ⟨E, hE⟩ := Interp.sameSpan_change (A := B) (B := A) fun r => (h r).symm
  have inj : ∀ {p q : Nat} (P : Matrix (Fin n) (Fin p) ℝ) (X Y : Matrix (Fin p) (Fin q) ℝ), Function.Injective P.mulVec → P * X = P * Y → X = Y := by
    intro p q P X Y hP hXY
    ext i j
    have : P *ᵥ X.col j = P *ᵥ Y.col j := by
      funext a
      exact congrFun (congrFun hXY a) j
    exact congrFun (hP this) i
  have h1 : D * E = 1 := inj B _ _ hB (by rw [← Matrix.mul_assoc, ← hD, Matrix.mul_one, ← hE])
  have h2 : E * D = 1 := inj A _ _ hA (by rw [← Matrix.mul_assoc, ← hE, Matrix.mul_one, ← hD])
  have hk : p = q := by simpa using square_of_invertible E D h2 h1
  exact ⟨D, E, hD, hE, h1, h2, hk⟩

theorem rows_mul {p q : Nat} (A : Matrix (Fin N) (Fin p) ℝ) (B : Matrix (Fin p) (Fin q) ℝ) : rows1 e (A * B) = rows1 e A * B := rfl

/-- C139: the columns that the timing model makes of the design matrix of the TOAs that are kept are those it makes of the whole design matrix in another
basis, whether they are normalized, singular vectors or neither, if the TOAs that are kept determine the timing parameters. -/
theorem C139_bases (thin : ∀ {n m : Nat} (M : Matrix (Fin n) (Fin m) ℝ), Interp.ThinSvd M) {useSvd : Bool} {nrm : Interp.NormArg}
    (hnrm : nrm = .yes ∨ nrm = .no ∧ useSvd = false) {m : Nat} (D : Matrix (Fin N) (Fin m) ℝ) (hD : Function.Injective (rows1 e D).mulVec) :
    ∃ (B : Matrix (Fin N) (Fin m) ℝ) (B' : Matrix (Fin N') (Fin m) ℝ) (w w' : Interp.Weights) (T : Matrix (Fin m) (Fin m) ℝ),
      Interp.tmBasis thin useSvd nrm [] D = .ok (⟨m, B⟩, w) ∧ Interp.tmBasis thin useSvd nrm [] (rows1 e D) = .ok (⟨m, B'⟩, w') ∧ T.det ≠ 0 ∧
        ∀ r c, B' r c = ∑ b, B (e (.inl r)) b * T b c := by
  have key : ∀ {n : Nat} (M : Matrix (Fin n) (Fin m) ℝ), Function.Injective M.mulVec →
      ∃ (B : Matrix (Fin n) (Fin m) ℝ) (w : Interp.Weights) (X Y : Matrix (Fin m) (Fin m) ℝ),
        Interp.tmBasis thin useSvd nrm [] M = .ok (⟨m, B⟩, w) ∧ B = M * X ∧ X * Y = 1 := by
    intro n M hM
    obtain ⟨⟨B1, b1, s1, i1⟩, ⟨q, B2, w2, b2, s2, i2⟩, b3⟩ := Interp.C93_bases (svd := thin) M hM
    rcases hnrm with rfl | ⟨rfl, rfl⟩
    · cases useSvd with
      | false =>
        obtain ⟨X, Y, h1, -, h2, -⟩ := span_change s1 i1 hM
        exact ⟨B1, _, X, Y, b1, h1, h2⟩
      | true =>
        obtain ⟨X, Y, h1, -, h2, -, rfl⟩ := span_change s2 i2 hM
        exact ⟨B2, _, X, Y, b2, h1, h2⟩
    · exact ⟨M, _, 1, 1, b3, (Matrix.mul_one _).symm, Matrix.mul_one _⟩
  obtain ⟨B, w, X, Y, h1, h2, h3⟩ := key D (inj_of hD)
  obtain ⟨B', w', X', Y', h1', h2', h3'⟩ := key (rows1 e D) hD
  refine ⟨B, B', w, w', Y * X', h1, h1', ?_, fun r c => ?_⟩
  · have d1 := congrArg det h3
    have d2 := congrArg det h3'
    rw [det_mul, det_one] at d1 d2
    rw [det_mul]
    exact mul_ne_zero (right_ne_zero_of_mul_eq_one d1) (left_ne_zero_of_mul_eq_one d2)
  · have : B' = rows1 e B * (Y * X') := by
      rw [h2', h2, rows_mul, Matrix.mul_assoc, ← Matrix.mul_assoc X, h3, Matrix.one_mul]
    rw [this]
    rfl

end Bases

/-! ## A pulsar with ECORR -/

/-- A pulsar with TOAs `ts` of one backend, epochs of a second, and a process. -/
noncomputable def sim (ts : List ℝ) : Std where
  toas := ts
  nu := List.replicate ts.length 1400
  errs := List.replicate ts.length 1
  pos := ![1, 0, 0]
  res := fun _ => 1
  white := .t2 (fun _ => 1) fun _ => -6
  masks := [("", List.replicate ts.length true)]
  dt := 1
  emasks := [("", List.replicate ts.length true)]
  log10Ecorr := fun _ => -6
  procs := [⟨.red, { nmodes := 1, Tspan := some 4 }, [("", List.replicate ts.length true)], false, [], fun _ => (-14, 13 / 3)⟩]
  rng := fun _ => 0
  tm := ⟨1, Matrix.of fun _ _ => 1⟩
  marg := false

theorem in_all {n i : Nat} : InMask (List.replicate n true) i ↔ i < n := by
  simp [InMask, List.getElem?_replicate]

theorem sim_ok (seeded : Int → Bases.Rng) {ts : List ℝ} (h : ts ≠ []) : (sim ts).Ok seeded exL := by
  have hpos : 0 < ts.length := List.length_pos_iff.2 h
  have hp : IsPartition ts.length [("", List.replicate ts.length true)] := by
    refine ⟨by simp, by simp, fun i hi => ⟨("", List.replicate ts.length true), ⟨by simp, in_all.2 hi⟩, fun y hy => by simpa using hy.1⟩⟩
  have hm : ∀ km ∈ [("", List.replicate ts.length true)], ∀ i : Nat, InMask km.2 i → "" = km.1 := by
    intro km hkm i _
    obtain rfl : km = ("", List.replicate ts.length true) := by simpa using hkm
    rfl
  refine ⟨h, by simp [sim], by simp [sim], fun _ => one_ne_zero, hp, hm, by norm_num [sim], by simp [sim], by simp [sim], ?_, ?_, hm, ?_, by simp [sim],
    fun _ j j' _ => Subsingleton.elim (α := Fin 1) j j', fun h => by cases h⟩
  · intro km hkm km' hkm' _ _ _
    have h1 : km = ("", List.replicate ts.length true) := by simpa [sim] using hkm
    have h2 : km' = ("", List.replicate ts.length true) := by simpa [sim] using hkm'
    rw [h1, h2]
  · intro km hkm
    have h1 : km = ("", List.replicate ts.length true) := by simpa [sim] using hkm
    exact ⟨0, by rw [h1]; exact in_all.2 hpos⟩
  · intro g hg
    obtain rfl := List.mem_singleton.1 hg
    refine ⟨⟨⟨rfl, rfl, rfl, rfl⟩, rfl, by simp, by simp, by simp, by simp [sim], fun km _ => ⟨by norm_num [exL], rfl⟩⟩, fun h => by cases h⟩

theorem one_fit {seeded : Int → Bases.Rng} {d : Std} {L : Labels} (h : d.Ok seeded L) (hm : d.marg = false) :
    Fit .cliques seeded (fun _ _ _ => 1) [⟨{ nmodes := 1 }, false, -14, 13 / 3, 4⟩] [(d, L)] where
  usual := fun k hk => by
    obtain rfl : k = ⟨{ nmodes := 1 }, false, -14, 13 / 3, 4⟩ := by simpa using hk
    exact ⟨⟨rfl, rfl, rfl, rfl⟩, rfl, rfl, by simp, by norm_num⟩
  suits := .inr (.inr ⟨by simp, by simp⟩)
  ok := fun d hd => by
    obtain rfl := List.mem_singleton.1 hd
    exact h
  marg := fun d hd => by
    obtain rfl := List.mem_singleton.1 hd
    exact hm
  orf := fun c _ => by
    have : (orfMatrix (fun _ _ => 1) fun u : Fin [(d, L)].length => ([(d, L)][u]).1.pos) = 1 := by
      ext i j
      obtain rfl : i = j := Subsingleton.elim (α := Fin 1) i j
      rw [Matrix.one_apply_eq]
      rfl
    rw [this]
    exact PosDef.one
  distinct := fun k hk hc => by
    obtain rfl : k = ⟨{ nmodes := 1 }, false, -14, 13 / 3, 4⟩ := by simpa using hk
    cases hc

theorem sim_fit (seeded : Int → Bases.Rng) {ts : List ℝ} (h : ts ≠ []) :
    Fit .cliques seeded (fun _ _ _ => 1) [⟨{ nmodes := 1 }, false, -14, 13 / 3, 4⟩] [(sim ts, exL)] := one_fit (sim_ok seeded h) rfl

theorem cut_all {f : Nat → Nat} {n m : Nat} (h : ∀ i < n, f i < m) :
    Cut f n [("", List.replicate m true)] [("", List.replicate n true)] :=
  .keep (fun i hi => ⟨fun _ => in_all.2 (h i hi), fun _ => in_all.2 hi⟩) .nil

theorem getD_all {n i : Nat} (x : ℝ) (h : i < n) : (List.replicate n x).getD i 0 = x := by
  simp [List.getD_eq_getElem?_getD, List.getElem?_replicate, h]

theorem sim_kept {f : Nat → Nat} {ts ts' : List ℝ} (hlt : ∀ i < ts'.length, f i < ts.length)
    (hinj : ∀ i < ts'.length, ∀ j < ts'.length, f i = f j → i = j) (ht : ∀ i < ts'.length, ts'.getD i 0 = ts.getD (f i) 0) :
    Kept f (sim ts) (sim ts') where
  lt := hlt
  inj := hinj
  toas := ht
  nu := fun i hi => (getD_all _ hi).trans (getD_all _ (hlt i hi)).symm
  errs := fun i hi => (getD_all _ hi).trans (getD_all _ (hlt i hi)).symm
  pos := rfl
  white := rfl
  masks := cut_all hlt
  dt := rfl
  ecorr := rfl
  emasks := cut_all hlt
  procs := .cons ⟨rfl, rfl, by simp, rfl, cut_all hlt⟩ .nil
  marg := rfl
  cols := rfl
  tm := fun _ i hi c hc => by
    have h1 : i < (sim ts').toas.length ∧ c < (sim ts').tm.1 := ⟨hi, hc⟩
    have h2 : f i < (sim ts).toas.length ∧ c < (sim ts).tm.1 := ⟨hlt i hi, hc⟩
    rw [spanned, spanned, dif_pos h1, dif_pos h2]
    rfl
  delays := fun _ _ _ => rfl

theorem sim_all {f : Nat → Nat} {ts ts' : List ℝ} (h : Kept f (sim ts) (sim ts')) : KeptAll (fun _ => f) [(sim ts, exL)] [(sim ts', exL)] := by
  refine ⟨rfl, fun a d d' ha ha' => ?_⟩
  cases a with
  | zero =>
    obtain rfl : (sim ts, exL) = d := by simpa using ha
    obtain rfl : (sim ts', exL) = d' := by simpa using ha'
    exact h
  | succ a => simp at ha

theorem sim_rows {f : Nat → Nat} {ts ts' : List ℝ} {N N' k : Nat} {e : Fin N' ⊕ Fin k ≃ Fin N} (he : ∀ r : Fin N', (e (.inl r) : Nat) = f r) :
    Rows (fun _ => f) [(sim ts, exL)] [(sim ts', exL)] e := by
  intro a d' ha i hi r hr
  cases a with
  | zero =>
    have : (r : Nat) = i := by simpa [size] using hr
    rw [he r, this]
    simp [size]
  | succ a => simp at ha

/-- The epochs of the pulsar, by the first times. -/
theorem sim_together {ts : List ℝ} {R : Set ℝ} (hR : Starts (maskTimes ts (List.replicate ts.length true)) R 1) (i j : Nat) :
    (∃ km ∈ (sim ts).emasks, Together (sim ts).toas (sim ts).dt km.2 i j) ↔
      ∃ r ∈ R, (i < ts.length ∧ r ≤ ts.getD i 0 ∧ ts.getD i 0 < r + 1) ∧ (j < ts.length ∧ r ≤ ts.getD j 0 ∧ ts.getD j 0 < r + 1) ∧
        ∃ x y, x ≠ y ∧ (x < ts.length ∧ r ≤ ts.getD x 0 ∧ ts.getD x 0 < r + 1) ∧ y < ts.length ∧ r ≤ ts.getD y 0 ∧ ts.getD y 0 < r + 1 := by
  simp only [sim, List.mem_singleton, exists_eq_left, Together, Within, in_all]
  constructor
  · rintro ⟨R', hR', h⟩
    obtain rfl := starts_unique (times_finite _ _) hR' hR
    exact h
  · intro h
    exact ⟨R, hR, h⟩

/-- C139 is false for an epoch of two TOAs of which one is kept: the TOA that is kept loses the variance of ECORR. -/
theorem C139_epoch_false {H : Type} [DecidableEq H] (hash : Col ℝ → H) (hh : Function.Injective hash)
    (svd : ∀ {n : Nat} (M : Matrix (Fin n) (Fin n) ℝ), Svd M) (argsort : List ℝ → List Nat) (hsort : ∀ l, Quantize.IsArgsort l (argsort l))
    (seeded : Int → Bases.Rng) :
    Kept id (sim [0, 1 / 2]) (sim [0]) ∧ ∃ (L : (Fin 2 → ℝ) → ℝ) (L' : (Fin 1 → ℝ) → ℝ),
      (∀ (y : Fin 2 → ℝ) (rng : Bases.Rng), ∃ ps, pta argsort seeded [(⟨{ nmodes := 1 }, false, -14, 13 / 3, 4⟩ : Plaw).common]
        [{ sim [0, 1 / 2] with res := fun i => out y i }] rng = .ok ps ∧
        likelihood hash svd .cliques (fun _ _ _ => 1) ps = .ok (some (L y))) ∧
      (∀ (y : Fin 1 → ℝ) (rng : Bases.Rng), ∃ ps, pta argsort seeded [(⟨{ nmodes := 1 }, false, -14, 13 / 3, 4⟩ : Plaw).common]
        [{ sim [0] with res := fun i => out y i }] rng = .ok ps ∧
        likelihood hash svd .cliques (fun _ _ _ => 1) ps = .ok (some (L' y))) ∧
      ∃ y : Fin 1 → ℝ, ∫ z : Fin 1 → ℝ, Real.exp (L (join finSumFinEquiv y z)) ≠ Real.sqrt ((2 * Real.pi) ^ 1) * Real.exp (L' y) := by
  have hk : Kept id (sim [0, 1 / 2]) (sim [0]) := sim_kept (f := id) (by simp) (by simp) (by simp)
  have h1 : Starts (maskTimes [0, 1 / 2] (List.replicate ([0, 1 / 2] : List ℝ).length true)) {(0 : ℝ)} 1 := by
    refine ⟨?_, ?_, ?_⟩
    · rintro r rfl
      exact ⟨0, rfl, rfl⟩
    · rintro r rfl r' rfl h
      exact absurd h (lt_irrefl _)
    · rintro t ⟨x, hx, rfl⟩
      have hx : x < 2 := in_all.1 hx
      interval_cases x <;> norm_num
  have h2 : Starts (maskTimes [0] (List.replicate ([0] : List ℝ).length true)) {(0 : ℝ)} 1 := by
    refine ⟨?_, ?_, ?_⟩
    · rintro r rfl
      exact ⟨0, rfl, rfl⟩
    · rintro r rfl r' rfl h
      exact absurd h (lt_irrefl _)
    · rintro t ⟨x, hx, rfl⟩
      have hx : x < 1 := in_all.1 hx
      interval_cases x
      norm_num
  refine ⟨hk, cut_ne hash hh svd argsort hsort (sim_fit seeded (ts := [0, 1 / 2]) (by simp)) (sim_fit seeded (ts := [0]) (by simp))
    (sim_all hk) (N := 2) (N' := 1) (k := 1) rfl rfl (e := finSumFinEquiv) (sim_rows fun _ => rfl) (a := 0) rfl rfl (i := 0) (j := 0)
    (by simp [sim]) (by simp [sim]) ?_⟩
  show ¬ ((∃ km ∈ (sim [0]).emasks, Together (sim [0]).toas (sim [0]).dt km.2 0 0) ↔
    ∃ km ∈ (sim [0, 1 / 2]).emasks, Together (sim [0, 1 / 2]).toas (sim [0, 1 / 2]).dt km.2 0 0)
  rw [sim_together h1, sim_together h2]
  intro h
  obtain ⟨r, -, -, -, x, y, hne, hx, hy⟩ := h.2 ⟨0, rfl, by norm_num, by norm_num, 0, 1, by norm_num, by norm_num, by norm_num⟩
  have := hx.1
  have := hy.1
  simp at *
  omega

/-- C139 is false when the first TOA of an epoch is dropped: the next one starts another epoch, which takes TOAs from the following one. -/
theorem C139_merge_false {H : Type} [DecidableEq H] (hash : Col ℝ → H) (hh : Function.Injective hash)
    (svd : ∀ {n : Nat} (M : Matrix (Fin n) (Fin n) ℝ), Svd M) (argsort : List ℝ → List Nat) (hsort : ∀ l, Quantize.IsArgsort l (argsort l))
    (seeded : Int → Bases.Rng) :
    Kept (· + 1) (sim [0, 1 / 2, 5 / 4]) (sim [1 / 2, 5 / 4]) ∧ ∃ (L : (Fin 3 → ℝ) → ℝ) (L' : (Fin 2 → ℝ) → ℝ),
      (∀ (y : Fin 3 → ℝ) (rng : Bases.Rng), ∃ ps, pta argsort seeded [(⟨{ nmodes := 1 }, false, -14, 13 / 3, 4⟩ : Plaw).common]
        [{ sim [0, 1 / 2, 5 / 4] with res := fun i => out y i }] rng = .ok ps ∧
        likelihood hash svd .cliques (fun _ _ _ => 1) ps = .ok (some (L y))) ∧
      (∀ (y : Fin 2 → ℝ) (rng : Bases.Rng), ∃ ps, pta argsort seeded [(⟨{ nmodes := 1 }, false, -14, 13 / 3, 4⟩ : Plaw).common]
        [{ sim [1 / 2, 5 / 4] with res := fun i => out y i }] rng = .ok ps ∧
        likelihood hash svd .cliques (fun _ _ _ => 1) ps = .ok (some (L' y))) ∧
      ∃ y : Fin 2 → ℝ, ∫ z : Fin 1 → ℝ, Real.exp (L (join ((Equiv.sumComm _ _).trans finSumFinEquiv) y z)) ≠
        Real.sqrt ((2 * Real.pi) ^ 1) * Real.exp (L' y) := by
  have hk : Kept (· + 1) (sim [0, 1 / 2, 5 / 4]) (sim [1 / 2, 5 / 4]) := sim_kept (by simp; omega) (by simp) (by simp)
  have h1 : Starts (maskTimes [0, 1 / 2, 5 / 4] (List.replicate ([0, 1 / 2, 5 / 4] : List ℝ).length true)) {(0 : ℝ), 5 / 4} 1 := by
    refine ⟨?_, ?_, ?_⟩
    · rintro r (rfl | rfl)
      · exact ⟨0, rfl, rfl⟩
      · exact ⟨2, rfl, rfl⟩
    · rintro r (rfl | rfl) r' (rfl | rfl) h <;> norm_num at *
    · rintro t ⟨x, hx, rfl⟩
      have hx : x < 3 := in_all.1 hx
      interval_cases x <;> norm_num
  have h2 : Starts (maskTimes [1 / 2, 5 / 4] (List.replicate ([1 / 2, 5 / 4] : List ℝ).length true)) {(1 / 2 : ℝ)} 1 := by
    refine ⟨?_, ?_, ?_⟩
    · rintro r rfl
      exact ⟨0, rfl, rfl⟩
    · rintro r rfl r' rfl h
      exact absurd h (lt_irrefl _)
    · rintro t ⟨x, hx, rfl⟩
      have hx : x < 2 := in_all.1 hx
      interval_cases x <;> norm_num
  refine ⟨hk, cut_ne hash hh svd argsort hsort (sim_fit seeded (ts := [0, 1 / 2, 5 / 4]) (by simp)) (sim_fit seeded (ts := [1 / 2, 5 / 4]) (by simp))
    (sim_all hk) (N := 3) (N' := 2) (k := 1) rfl rfl (e := (Equiv.sumComm _ _).trans finSumFinEquiv) (sim_rows fun r => Nat.add_comm 1 r) (a := 0) rfl rfl
    (i := 0) (j := 1) (by simp [sim]) (by simp [sim]) ?_⟩
  show ¬ ((∃ km ∈ (sim [1 / 2, 5 / 4]).emasks, Together (sim [1 / 2, 5 / 4]).toas (sim [1 / 2, 5 / 4]).dt km.2 0 1) ↔
    ∃ km ∈ (sim [0, 1 / 2, 5 / 4]).emasks, Together (sim [0, 1 / 2, 5 / 4]).toas (sim [0, 1 / 2, 5 / 4]).dt km.2 1 2)
  rw [sim_together h1, sim_together h2]
  intro h
  obtain ⟨r, hr, h3, h4, -⟩ := h.1 ⟨1 / 2, rfl, by norm_num, by norm_num, 0, 1, by norm_num, by norm_num, by norm_num⟩
  rcases hr with rfl | rfl
  · norm_num at h4
  · norm_num at h3

/-- The pulsar without ECORR and with the columns of another timing model. -/
noncomputable def offset (ts : List ℝ) (w : ℝ) : Std := { sim ts with emasks := [], tm := ⟨1, Matrix.of fun _ _ => w⟩ }

theorem offset_ok (seeded : Int → Bases.Rng) {ts : List ℝ} (h : ts ≠ []) (w : ℝ) : (offset ts w).Ok seeded exL := by
  have hs := sim_ok seeded h
  exact ⟨hs.toas, hs.nu, hs.errs, hs.white, hs.masks, hs.key, hs.dt, by simp [offset], by simp [offset], by intro km hkm; simp [offset] at hkm,
    by simp [offset], by simp [offset], hs.procs, by simp [offset], fun _ j j' _ => Subsingleton.elim (α := Fin 1) j j', fun h => by cases h⟩

/-- C139 is false of the columns of the default timing model, even if it is not marginalized over and there is no ECORR: `normed_tm_basis` divides
them by their norm, which is less when TOAs are dropped, so that the prior of the timing parameters is another one.  Here the only column is an offset,
and two TOAs become one. -/
theorem C139_normed_false {H : Type} [DecidableEq H] (hash : Col ℝ → H) (hh : Function.Injective hash)
    (svd : ∀ {n : Nat} (M : Matrix (Fin n) (Fin n) ℝ), Svd M) (thin : ∀ {n m : Nat} (M : Matrix (Fin n) (Fin m) ℝ), Interp.ThinSvd M)
    (argsort : List ℝ → List Nat) (hsort : ∀ l, Quantize.IsArgsort l (argsort l)) (seeded : Int → Bases.Rng) :
    Kept id (sim [0, 2]) (sim [0]) ∧
    Interp.tmBasis thin false .yes [] (Matrix.of fun (_ : Fin 2) (_ : Fin 1) => (1 : ℝ)) = .ok ((offset [0, 2] (1 / Real.sqrt 2)).tm, .num) ∧
    Interp.tmBasis thin false .yes [] (Matrix.of fun (_ : Fin 1) (_ : Fin 1) => (1 : ℝ)) = .ok ((offset [0] 1).tm, .num) ∧
    ∃ (L : (Fin 2 → ℝ) → ℝ) (L' : (Fin 1 → ℝ) → ℝ),
      (∀ (y : Fin 2 → ℝ) (rng : Bases.Rng), ∃ ps, pta argsort seeded [(⟨{ nmodes := 1 }, false, -14, 13 / 3, 4⟩ : Plaw).common]
        [{ offset [0, 2] (1 / Real.sqrt 2) with res := fun i => out y i }] rng = .ok ps ∧
        likelihood hash svd .cliques (fun _ _ _ => 1) ps = .ok (some (L y))) ∧
      (∀ (y : Fin 1 → ℝ) (rng : Bases.Rng), ∃ ps, pta argsort seeded [(⟨{ nmodes := 1 }, false, -14, 13 / 3, 4⟩ : Plaw).common]
        [{ offset [0] 1 with res := fun i => out y i }] rng = .ok ps ∧
        likelihood hash svd .cliques (fun _ _ _ => 1) ps = .ok (some (L' y))) ∧
      ∃ y : Fin 1 → ℝ, ∫ z : Fin 1 → ℝ, Real.exp (L (join finSumFinEquiv y z)) ≠ Real.sqrt ((2 * Real.pi) ^ 1) * Real.exp (L' y) := by
  have hk : Kept id (sim [0, 2]) (sim [0]) := sim_kept (f := id) (by simp) (by simp) (by simp)
  refine ⟨hk, ?_, ?_, ?_⟩
  · have hn : ∀ j, Interp.colNorm (Matrix.of fun (_ : Fin 2) (_ : Fin 1) => (1 : ℝ)) j = Real.sqrt 2 := by
      intro j
      simp [Interp.colNorm]
    have h0 : Real.sqrt 2 ≠ 0 := by positivity
    have hd : Interp.divNorm (Matrix.of fun (_ : Fin 2) (_ : Fin 1) => (1 : ℝ)) (Interp.colNorm (Matrix.of fun (_ : Fin 2) (_ : Fin 1) => (1 : ℝ))) =
        Matrix.of fun _ _ => 1 / Real.sqrt 2 := by
      ext i j
      simp only [Interp.divNorm, of_apply, hn, if_neg h0]
    show Except.ok ((⟨1, Interp.divNorm (Matrix.of fun (_ : Fin 2) (_ : Fin 1) => (1 : ℝ)) (Interp.colNorm (Matrix.of fun (_ : Fin 2) (_ : Fin 1) => (1 : ℝ)))⟩ :
      Σ k : Nat, Matrix (Fin 2) (Fin k) ℝ), Interp.Weights.num) = _
    rw [hd]
    rfl
  · have hn : ∀ j, Interp.colNorm (Matrix.of fun (_ : Fin 1) (_ : Fin 1) => (1 : ℝ)) j = 1 := by
      intro j
      simp [Interp.colNorm]
    have hd : Interp.divNorm (Matrix.of fun (_ : Fin 1) (_ : Fin 1) => (1 : ℝ)) (Interp.colNorm (Matrix.of fun (_ : Fin 1) (_ : Fin 1) => (1 : ℝ))) =
        Matrix.of fun _ _ => 1 := by
      ext i j
      simp only [Interp.divNorm, of_apply, hn, if_neg one_ne_zero, div_one]
    show Except.ok ((⟨1, Interp.divNorm (Matrix.of fun (_ : Fin 1) (_ : Fin 1) => (1 : ℝ)) (Interp.colNorm (Matrix.of fun (_ : Fin 1) (_ : Fin 1) => (1 : ℝ)))⟩ :
      Σ k : Nat, Matrix (Fin 1) (Fin k) ℝ), Interp.Weights.num) = _
    rw [hd]
    rfl
  · obtain ⟨same, h1, C, h2, h3, h4⟩ := (one_fit (offset_ok seeded (ts := [0, 2]) (by simp) (1 / Real.sqrt 2)) rfl).data hash hh svd argsort hsort (N := 2) rfl
    obtain ⟨same', h1', C', h2', h3', h4'⟩ := (one_fit (offset_ok seeded (ts := [0]) (by simp) 1) rfl).data hash hh svd argsort hsort (N := 1) rfl
    refine ⟨_, _, h4, h4', ?_⟩
    by_contra hc
    push Not at hc
    let q : Fin 1 ⊕ Fin 1 ≃ Fin 2 := finSumFinEquiv
    have hid := identify (first_pos h2 q) h2' (fun r => delaysOf [(offset [0, 2] (1 / Real.sqrt 2), exL)] (q (.inl r)))
        (fun r => delaysOf [(offset [0] 1, exL)] r) fun y => by
      have e1 := hc y
      rw [(gauss_marginal h2 q (fun r : Fin 2 => delaysOf [(offset [0, 2] (1 / Real.sqrt 2), exL)] r) y).2] at e1
      exact Real.exp_injective (mul_left_cancel₀ (Real.sqrt_pos.2 (by positivity)).ne' e1)
    have e2 : C 0 0 = C' 0 0 := by
      rw [← hid.1]
      rfl
    have e3 := h3 0 0 _ _ rfl rfl 0 0 (by simp [offset, sim]) (by simp [offset, sim]) (0 : Fin 2) (0 : Fin 2) rfl rfl
    have e4 := h3' 0 0 _ _ rfl rfl 0 0 (by simp [offset, sim]) (by simp [offset, sim]) (0 : Fin 1) (0 : Fin 1) rfl rfl
    have s1 : same 0 0 0 = false := by
      by_contra hs
      obtain ⟨km, hkm, -⟩ := (h1 0 _ rfl).near 0 0 (by simpa using hs)
      simp [offset] at hkm
    have s2 : same' 0 0 0 = false := by
      by_contra hs
      obtain ⟨km, hkm, -⟩ := (h1' 0 _ rfl).near 0 0 (by simpa using hs)
      simp [offset] at hkm
    have e5 : C 0 0 = _ := e3
    have e6 : C' 0 0 = _ := e4
    rw [e5, e6] at e2
    have hcov : ((sim [0, 2]).procs.map fun g => g.cov [0, 2] (sim [0, 2]).nu (exL.T g) 0 0).sum = ((sim [0]).procs.map fun g => g.cov [0] (sim [0]).nu (exL.T g) 0 0).sum := by
      simp [sim, PowerGP.cov, exL, InMask]
    have t1 : (∑ c : Fin (offset [0, 2] (1 / Real.sqrt 2)).tm.1, spanned (offset [0, 2] (1 / Real.sqrt 2)).tm.2 0 c * spanned (offset [0, 2] (1 / Real.sqrt 2)).tm.2 0 c) = 1 / 2 := by
      show (∑ c : Fin 1, spanned (Matrix.of fun (_ : Fin 2) (_ : Fin 1) => 1 / Real.sqrt 2) 0 c * spanned (Matrix.of fun (_ : Fin 2) (_ : Fin 1) => 1 / Real.sqrt 2) 0 c) = 1 / 2
      simp [spanned, ← mul_inv]
    have t2 : (∑ c : Fin (offset [0] 1).tm.1, spanned (offset [0] 1).tm.2 0 c * spanned (offset [0] 1).tm.2 0 c) = 1 := by
      show (∑ c : Fin 1, spanned (Matrix.of fun (_ : Fin 1) (_ : Fin 1) => (1 : ℝ)) 0 c * spanned (Matrix.of fun (_ : Fin 1) (_ : Fin 1) => (1 : ℝ)) 0 c) = 1
      simp [spanned]
    have o1 : (offset [0, 2] (1 / Real.sqrt 2)).own exL (same 0) 0 0 + 1e40 * (1 / 2) = (offset [0] 1).own exL (same' 0) 0 0 := by
      unfold Std.own
      rw [t1, t2, s1, s2]
      have : ((offset [0, 2] (1 / Real.sqrt 2)).procs.map fun g => g.cov (offset [0, 2] (1 / Real.sqrt 2)).toas (offset [0, 2] (1 / Real.sqrt 2)).nu (exL.T g) 0 0).sum =
        ((offset [0] 1).procs.map fun g => g.cov (offset [0] 1).toas (offset [0] 1).nu (exL.T g) 0 0).sum := hcov
      rw [this]
      have m1 : (offset [0, 2] (1 / Real.sqrt 2)).marg = false := rfl
      have m2 : (offset [0] 1).marg = false := rfl
      have w1 : (offset [0, 2] (1 / Real.sqrt 2)).white.var (exL.key 0) ((offset [0, 2] (1 / Real.sqrt 2)).errs.getD 0 0) =
        (offset [0] 1).white.var (exL.key 0) ((offset [0] 1).errs.getD 0 0) := rfl
      rw [m1, m2, w1]
      norm_num
      ring
    have e7 : (offset [0, 2] (1 / Real.sqrt 2)).own exL (same 0) 0 0 = (offset [0] 1).own exL (same' 0) 0 0 := by
      simpa [offset, sim] using e2
    rw [← o1] at e7
    norm_num at e7

/-- Of the epochs at 0 and 5 seconds the second is dropped. -/
example {H : Type} [DecidableEq H] (hash : Col ℝ → H) (hh : Function.Injective hash)
    (svd : ∀ {n : Nat} (M : Matrix (Fin n) (Fin n) ℝ), Svd M) (argsort : List ℝ → List Nat) (hsort : ∀ l, Quantize.IsArgsort l (argsort l))
    (seeded : Int → Bases.Rng) :
    ∃ (L : (Fin 3 → ℝ) → ℝ) (L' : (Fin 2 → ℝ) → ℝ),
      (∀ (y : Fin 3 → ℝ) (rng : Bases.Rng), ∃ ps, pta argsort seeded [(⟨{ nmodes := 1 }, false, -14, 13 / 3, 4⟩ : Plaw).common]
        [{ sim [0, 1 / 2, 5] with res := fun i => out y i }] rng = .ok ps ∧
        likelihood hash svd .cliques (fun _ _ _ => 1) ps = .ok (some (L y))) ∧
      (∀ (y : Fin 2 → ℝ) (rng : Bases.Rng), ∃ ps, pta argsort seeded [(⟨{ nmodes := 1 }, false, -14, 13 / 3, 4⟩ : Plaw).common]
        [{ sim [0, 1 / 2] with res := fun i => out y i }] rng = .ok ps ∧
        likelihood hash svd .cliques (fun _ _ _ => 1) ps = .ok (some (L' y))) ∧
      ∀ y : Fin 2 → ℝ, ∫ z : Fin 1 → ℝ, Real.exp (L (join finSumFinEquiv y z)) = Real.sqrt ((2 * Real.pi) ^ 1) * Real.exp (L' y) := by
  have hk : Kept id (sim [0, 1 / 2, 5]) (sim [0, 1 / 2]) := by
    refine sim_kept (f := id) (by simp; omega) (by simp) fun i hi => ?_
    have hi : i < 2 := hi
    interval_cases i <;> rfl
  have h1 : Starts (maskTimes [0, 1 / 2, 5] (List.replicate ([0, 1 / 2, 5] : List ℝ).length true)) {(0 : ℝ), 5} 1 := by
    refine ⟨?_, ?_, ?_⟩
    · rintro r (rfl | rfl)
      · exact ⟨0, rfl, rfl⟩
      · exact ⟨2, rfl, rfl⟩
    · rintro r (rfl | rfl) r' (rfl | rfl) h <;> norm_num at *
    · rintro t ⟨x, hx, rfl⟩
      have hx : x < 3 := in_all.1 hx
      interval_cases x <;> norm_num
  have hw : WholeEpochs id (sim [0, 1 / 2, 5]) (sim [0, 1 / 2]) := by
    intro km hkm R hR r hr i hi hw x hx
    obtain rfl := List.mem_singleton.1 hkm
    obtain rfl := starts_unique (times_finite _ _) hR h1
    have hi : i < 2 := hi
    have hx3 : x < 3 := in_all.1 hx.1
    obtain ⟨-, a1, a2⟩ := hw
    obtain ⟨-, b1, b2⟩ := hx
    refine ⟨x, ?_, rfl⟩
    show x < 2
    rcases hr with rfl | rfl <;> interval_cases i <;> interval_cases x <;> norm_num [sim] at *
  obtain ⟨L, L', h2, h3, h4, -⟩ := C139_marginal_partial hash hh svd argsort hsort (sim_fit seeded (ts := [0, 1 / 2, 5]) (by simp))
    (sim_fit seeded (ts := [0, 1 / 2]) (by simp)) (sim_all hk) (fun a d d' ha ha' => by
      cases a with
      | zero =>
        obtain rfl : (sim [0, 1 / 2, 5], exL) = d := by simpa using ha
        obtain rfl : (sim [0, 1 / 2], exL) = d' := by simpa using ha'
        exact whole_keeps hk hw
      | succ a => simp at ha) (N := 3) (N' := 2) (k := 1) rfl rfl (e := finSumFinEquiv) (sim_rows fun _ => rfl)
  exact ⟨L, L', h2, h3, fun y => (h4 y).2⟩

/-- A timing model with a normalized offset, which is marginalized over, and three TOAs of which two are kept. -/
example {H : Type} [DecidableEq H] (hash : Col ℝ → H) (hh : Function.Injective hash)
    (svd : ∀ {n : Nat} (M : Matrix (Fin n) (Fin n) ℝ), Svd M) (argsort : List ℝ → List Nat) (hsort : ∀ l, Quantize.IsArgsort l (argsort l))
    (seeded : Int → Bases.Rng) :
    ∃ (L : (Fin 3 → ℝ) → ℝ) (L' : (Fin 2 → ℝ) → ℝ),
      (∀ (y : Fin 3 → ℝ) (rng : Bases.Rng), ∃ ps, pta argsort seeded [(⟨{ nmodes := 1 }, false, -14, 13 / 3, 4⟩ : Plaw).common]
        [{ offset [0, 1, 2] (1 / Real.sqrt 3) with marg := true, res := fun i => out y i }] rng = .ok ps ∧
        likelihood hash svd .cliques (fun _ _ _ => 1) ps = .ok (some (L y))) ∧
      (∀ (y : Fin 2 → ℝ) (rng : Bases.Rng), ∃ ps, pta argsort seeded [(⟨{ nmodes := 1 }, false, -14, 13 / 3, 4⟩ : Plaw).common]
        [{ offset [0, 1] (1 / Real.sqrt 2) with marg := true, res := fun i => out y i }] rng = .ok ps ∧
        likelihood hash svd .cliques (fun _ _ _ => 1) ps = .ok (some (L' y))) ∧
      ∀ y : Fin 2 → ℝ, ∫ z : Fin 1 → ℝ, Real.exp (L (join finSumFinEquiv y z)) =
        Real.sqrt ((2 * Real.pi) ^ 1) * (Real.sqrt 3 / Real.sqrt 2) * Real.exp (L' y) := by
  let A : Std := { offset [0, 1, 2] (1 / Real.sqrt 3) with marg := true }
  let B : Std := { offset [0, 1] (1 / Real.sqrt 2) with marg := true }
  have ok : ∀ (ts : List ℝ) (w : ℝ), ts ≠ [] → w ≠ 0 → Std.Ok { offset ts w with marg := true } seeded exL := by
    intro ts w hts hw
    have h := offset_ok seeded hts w
    refine ⟨h.toas, h.nu, h.errs, h.white, h.masks, h.key, h.dt, h.ekeys, h.elen, h.edisj, h.esome, h.ekey, h.procs, h.cols, fun h => (by cases h), fun _ => ?_⟩
    intro x y hxy
    funext c
    have hpos : 0 < ts.length := List.length_pos_iff.2 hts
    have h1 := congrFun hxy ⟨0, hpos⟩
    have h2 : w * x (0 : Fin 1) = w * y (0 : Fin 1) := by
      have e : ∀ x : Fin 1 → ℝ, ((Matrix.of fun (_ : Fin ts.length) (_ : Fin 1) => w) *ᵥ x) ⟨0, hpos⟩ = w * x 0 := by
        intro x
        simp [mulVec, dotProduct]
      exact (e x).symm.trans (h1.trans (e y))
    obtain rfl : c = (0 : Fin 1) := Subsingleton.elim (α := Fin 1) c 0
    exact mul_left_cancel₀ hw h2
  have s2 : Real.sqrt 2 ≠ 0 := by positivity
  have s3 : Real.sqrt 3 ≠ 0 := by positivity
  have hA : A.Ok seeded exL := ok [0, 1, 2] _ (by simp) (by positivity)
  have hB : B.Ok seeded exL := ok [0, 1] _ (by simp) (by positivity)
  have fit : ∀ {d : Std}, d.Ok seeded exL → Reduced.Fit .cliques seeded (fun _ _ _ => 1) [⟨{ nmodes := 1 }, false, -14, 13 / 3, 4⟩] [(d, exL)] := by
    intro d hd
    refine ⟨?_, .inr (.inr ⟨by simp, by simp⟩), .inl (by simp), ?_, ?_, ?_⟩
    · intro k hk
      obtain rfl : k = ⟨{ nmodes := 1 }, false, -14, 13 / 3, 4⟩ := by simpa using hk
      exact ⟨⟨rfl, rfl, rfl, rfl⟩, rfl, rfl, by simp, by norm_num⟩
    · intro d hd
      obtain rfl := List.mem_singleton.1 hd
      assumption
    · intro c _
      have : (orfMatrix (fun _ _ => 1) fun u : Fin [(d, exL)].length => ([(d, exL)][u]).1.pos) = 1 := by
        ext i j
        obtain rfl : i = j := Subsingleton.elim (α := Fin 1) i j
        rw [Matrix.one_apply_eq]
        rfl
      rw [this]
      exact PosDef.one
    · intro k hk hc
      obtain rfl : k = ⟨{ nmodes := 1 }, false, -14, 13 / 3, 4⟩ := by simpa using hk
      cases hc
  have hks : Kept id (sim [0, 1, 2]) (sim [0, 1]) := by
    refine sim_kept (f := id) (by simp; omega) (by simp) fun i hi => ?_
    have hi : i < 2 := hi
    interval_cases i <;> rfl
  have hk : Kept id A B := ⟨hks.lt, hks.inj, hks.toas, hks.nu, hks.errs, rfl, rfl, hks.masks, rfl, rfl, .nil, hks.procs, rfl, rfl, fun h => (by cases h), fun _ _ _ => rfl⟩
  have hka : KeptAll (fun _ => id) [(A, exL)] [(B, exL)] := by
    refine ⟨rfl, fun a d d' ha ha' => ?_⟩
    cases a with
    | zero =>
      obtain rfl : (A, exL) = d := by simpa using ha
      obtain rfl : (B, exL) = d' := by simpa using ha'
      exact hk
    | succ a => simp at ha
  have hr : Rows (fun _ => id) [(A, exL)] [(B, exL)] (finSumFinEquiv : Fin 2 ⊕ Fin 1 ≃ Fin 3) := by
    intro a d' ha i hi r hr
    cases a with
    | zero =>
      have : (r : Nat) = i := by simpa [size] using hr
      show (r : Nat) = _
      rw [this]
      simp [size]
    | succ a => simp at ha
  have hMA : Reduced.IsColumns [(A, exL)] (Matrix.of fun (_ : Fin 3) (_ : Fin 1) => 1 / Real.sqrt 3) := by
    refine ⟨rfl, rfl, fun i j => ?_⟩
    have hi : (i : Nat) < 3 := i.2
    have hj : (j : Nat) < 1 := j.2
    show rect [(3, 1, spanned (Matrix.of fun (_ : Fin 3) (_ : Fin 1) => 1 / Real.sqrt 3))] i j = _
    rw [rect, if_pos hi, if_pos hj]
    simp [spanned, hi, hj]
  have hMB : Reduced.IsColumns [(B, exL)] (Matrix.of fun (_ : Fin 2) (_ : Fin 1) => 1 / Real.sqrt 2) := by
    refine ⟨rfl, rfl, fun i j => ?_⟩
    have hi : (i : Nat) < 2 := i.2
    have hj : (j : Nat) < 1 := j.2
    show rect [(2, 1, spanned (Matrix.of fun (_ : Fin 2) (_ : Fin 1) => 1 / Real.sqrt 2))] i j = _
    rw [rect, if_pos hi, if_pos hj]
    simp [spanned, hi, hj]
  have hdet : (Matrix.of fun (_ : Fin 1) (_ : Fin 1) => Real.sqrt 3 / Real.sqrt 2).det = Real.sqrt 3 / Real.sqrt 2 := by simp
  obtain ⟨L, L', h2, h3, h4, -⟩ := C139_wide_partial hash hh svd argsort hsort (fit hA) (fit hB) hka (fun a d d' ha ha' => by
      cases a with
      | zero =>
        obtain rfl : (A, exL) = d := by simpa using ha
        intro km hkm
        cases hkm
      | succ a => simp at ha) hr hMA hMB (T := Matrix.of fun _ _ => Real.sqrt 3 / Real.sqrt 2) (by rw [hdet]; positivity) (fun r c => by
        simp only [of_apply, Fin.sum_univ_one]
        field_simp)
  refine ⟨L, L', h2, h3, fun y => ?_⟩
  have := (h4 y).2
  rwa [hdet, abs_of_pos (by positivity)] at this

end Verif.Dropped
