import Verif.Props.StdArray
import Verif.Props.PsrOrder

/-!
# Property C126: neither the order of the TOAs, nor the origin of time, nor the axes of the sky matter
-/

namespace Verif.StdArray

open Verif Verif.Likelihood Verif.Noise Verif.Combine Verif.Joined Verif.Standard Verif.Background Finset
open Verif.Orf (Pos orfMatrix)
open Verif.Partition (Svd)

variable {H : Type} [DecidableEq H]

/-! ## Specification -/

/-- The masks `ms'` select TOA `i` where the masks `ms` select TOA `e i`. -/
def MovedMasks (n : Nat) (e : Nat → Nat) (ms ms' : Dict String Mask) : Prop :=
  List.Forall₂ (fun km km' => km'.1 = km.1 ∧ ∀ i, i < n → (InMask km'.2 i ↔ InMask km.2 (e i))) ms ms'

/-- The process `g'` is the process `g` with its masks moved. -/
structure MovedProc (n : Nat) (e : Nat → Nat) (g g' : PowerGP) : Prop where
  chrom : g'.chrom = g.chrom
  args : g'.args = g.args
  now : g'.now = g.now
  masks : MovedMasks n e g.masks g'.masks

/-- The pulsar `d'` is the pulsar `d` with its TOAs in another order, TOA `i` being TOA `e i` of `d`, with all times later by `c`, and in the
direction `rot d.pos`. -/
structure Moved (c : ℝ) (rot : Pos → Pos) (d d' : Std) (e : Nat → Nat) : Prop where
  len : d'.toas.length = d.toas.length
  into : ∀ i, i < d.toas.length → e i < d.toas.length
  inj : ∀ i j, i < d.toas.length → j < d.toas.length → e i = e j → i = j
  toas : ∀ i, i < d.toas.length → d'.toas.getD i 0 = d.toas.getD (e i) 0 + c
  nu : ∀ i, i < d.toas.length → d'.nu.getD i 0 = d.nu.getD (e i) 0
  errs : ∀ i, i < d.toas.length → d'.errs.getD i 0 = d.errs.getD (e i) 0
  pos : d'.pos = rot d.pos
  res : ∀ i (h' : i < d'.toas.length) (h : e i < d.toas.length), d'.res ⟨i, h'⟩ = d.res ⟨e i, h⟩
  delays : ∀ i (h' : i < d'.toas.length) (h : e i < d.toas.length), d'.delays.reduceOption.sum ⟨i, h'⟩ = d.delays.reduceOption.sum ⟨e i, h⟩
  white : d'.white = d.white
  masks : MovedMasks d.toas.length e d.masks d'.masks
  dt : d'.dt = d.dt
  emasks : MovedMasks d.toas.length e d.emasks d'.emasks
  log10Ecorr : d'.log10Ecorr = d.log10Ecorr
  procs : List.Forall₂ (MovedProc d.toas.length e) d.procs d'.procs
  marg : d'.marg = d.marg
  wide : d'.tm.1 = d.tm.1
  tm : ∀ i, i < d.toas.length → ∀ k, spanned d'.tm.2 i k = spanned d.tm.2 (e i) k

/-! ## Epochs and time spans -/

theorem together_moved {toas toas' : List ℝ} {dt c : ℝ} {m m' : Mask} (ρ : Nat → Nat → Prop) (h1 : ∀ x, InMask m x → ∃ x', ρ x' x)
    (h2 : ∀ x', InMask m' x' → ∃ x, ρ x' x) (h3 : ∀ x' x, ρ x' x → (InMask m' x' ↔ InMask m x))
    (h4 : ∀ x' x, ρ x' x → toas'.getD x' 0 = toas.getD x 0 + c) (h5 : ∀ x' x y' y, ρ x' x → ρ y' y → x = y → x' = y') {i i' j j' : Nat}
    (hi : ρ i' i) (hj : ρ j' j) (h : Quantize.Together toas' dt m' i' j') : Quantize.Together toas dt m i j := by
  obtain ⟨R, hR, r, hr, hwi, hwj, x', y', hne, hx, hy⟩ := h
  have hw : ∀ x' x, ρ x' x → Quantize.Within toas' dt m' r x' → Quantize.Within toas dt m (r - c) x := by
    intro x' x hxx hw
    have := h4 x' x hxx
    exact ⟨(h3 x' x hxx).1 hw.1, by linarith [hw.2.1], by linarith [hw.2.2]⟩
  obtain ⟨x, hxx⟩ := h2 x' hx.1
  obtain ⟨y, hyy⟩ := h2 y' hy.1
  refine ⟨{s | s + c ∈ R}, ⟨?_, ?_, ?_⟩, r - c, by simpa using hr, hw _ _ hi hwi, hw _ _ hj hwj, x, y,
    fun e => hne (h5 _ _ _ _ hxx hyy e), hw _ _ hxx hx, hw _ _ hyy hy⟩
  · intro s hs
    obtain ⟨z', hz, he⟩ := hR.sub hs
    obtain ⟨z, hzz⟩ := h2 z' hz
    exact ⟨z, (h3 _ _ hzz).1 hz, by linarith [h4 _ _ hzz]⟩
  · intro s hs s' hs' hlt
    linarith [hR.apart _ hs _ hs' (by linarith)]
  · rintro t ⟨z, hz, rfl⟩
    obtain ⟨z', hzz⟩ := h1 z hz
    obtain ⟨s, hs, hl, hg⟩ := hR.cover _ ⟨z', (h3 _ _ hzz).2 hz, rfl⟩
    have := h4 _ _ hzz
    exact ⟨s - c, by simpa using hs, by linarith, by linarith⟩

theorem span_moved {l l' : List ℝ} {c T T' : ℝ} (h : ∀ t, t ∈ l ↔ t + c ∈ l') (hT : Bases.span l = .ok T) (hT' : Bases.span l' = .ok T') :
    T' = T := by
  obtain ⟨lo, hi, h1, h2, rfl⟩ := Bases.span_ok hT
  obtain ⟨lo', hi', h3, h4, rfl⟩ := Bases.span_ok hT'
  have e : ∀ t, t ∈ l' → t - c ∈ l := fun t ht => (h _).2 (by simpa using ht)
  have a1 := h3.2 ((h lo).1 h1.1)
  have a2 := h1.2 (e lo' h3.1)
  have a3 := h4.2 ((h hi).1 h2.1)
  have a4 := h2.2 (e hi' h4.1)
  linarith

theorem inMask_lt {m : Mask} {i : Nat} (h : InMask m i) : i < m.length := (List.getElem?_eq_some_iff.1 h).1

/-- A map of the numbers below `n` to themselves that keeps different numbers different reaches all. -/
theorem reaches {n : Nat} {e : Nat → Nat} (h1 : ∀ i, i < n → e i < n) (h2 : ∀ i j, i < n → j < n → e i = e j → i = j) (x : Nat) (hx : x < n) :
    ∃ x', x' < n ∧ e x' = x := by
  let f : Fin n → Fin n := fun i => ⟨e i, h1 i i.2⟩
  have hf : Function.Injective f := fun i j h => Fin.ext (h2 i j i.2 j.2 (congrArg Fin.val h))
  obtain ⟨y, hy⟩ := (Finite.injective_iff_surjective.1 hf) ⟨x, hx⟩
  exact ⟨y, y.2, congrArg Fin.val hy⟩

theorem together_iff {c : ℝ} {rot : Pos → Pos} {d d' : Std} {e : Nat → Nat} (h : Moved c rot d d' e) (dt : ℝ) {m m' : Mask}
    (hm : m.length = d.toas.length) (hm' : m'.length = d.toas.length) (hmm : ∀ i, i < d.toas.length → (InMask m' i ↔ InMask m (e i))) {i j : Nat}
    (hi : i < d.toas.length) (hj : j < d.toas.length) :
    Quantize.Together d'.toas dt m' i j ↔ Quantize.Together d.toas dt m (e i) (e j) := by
  constructor
  · refine together_moved (c := c) (fun x' x => x' < d.toas.length ∧ e x' = x) ?_ ?_ ?_ ?_ ?_ ⟨hi, rfl⟩ ⟨hj, rfl⟩
    · intro x hx
      exact reaches h.into h.inj x (hm ▸ inMask_lt hx)
    · intro x' hx
      exact ⟨e x', hm' ▸ inMask_lt hx, rfl⟩
    · rintro x' _ ⟨hx, rfl⟩
      exact hmm x' hx
    · rintro x' _ ⟨hx, rfl⟩
      exact h.toas x' hx
    · rintro x' _ y' _ ⟨hx, rfl⟩ ⟨hy, rfl⟩ he
      exact h.inj _ _ hx hy he
  · refine together_moved (c := -c) (fun x' x => x < d.toas.length ∧ e x = x') ?_ ?_ ?_ ?_ ?_ ⟨hi, rfl⟩ ⟨hj, rfl⟩
    · intro x hx
      exact ⟨e x, hm' ▸ inMask_lt hx, rfl⟩
    · intro x' hx
      exact reaches h.into h.inj x' (hm ▸ inMask_lt hx)
    · rintro _ x ⟨hx, rfl⟩
      exact (hmm x hx).symm
    · rintro _ x ⟨hx, rfl⟩
      rw [h.toas x hx]
      ring
    · rintro _ x _ y ⟨hx, rfl⟩ ⟨hy, rfl⟩ rfl
      rfl

theorem getD_of {l : List ℝ} {i : Nat} (h : i < l.length) : l[i]? = some (l.getD i 0) := by
  simp [List.getD_eq_getElem?_getD, List.getElem?_eq_getElem h]

theorem tspan_moved {c : ℝ} {rot : Pos → Pos} {d d' : Std} {e : Nat → Nat} (h : Moved c rot d d' e) {m m' : Mask}
    (hm : m.length = d.toas.length) (hmm : ∀ i, i < d.toas.length → (InMask m' i ↔ InMask m (e i))) {args : Bases.Args} {T T' : ℝ}
    (hT : Bases.tspan (maskSelect d.toas m) args = .ok T) (hT' : Bases.tspan (maskSelect d'.toas m') args = .ok T') : T' = T := by
  unfold Bases.tspan at hT hT'
  cases hs : args.Tspan with
  | some t =>
    rw [hs] at hT hT'
    simp_all
  | none =>
    rw [hs] at hT hT'
    refine span_moved (c := c) (fun t => ?_) hT hT'
    rw [Quantize.mem_maskSelect, Quantize.mem_maskSelect]
    constructor
    · rintro ⟨x, h1, h2⟩
      have hx : x < d.toas.length := (List.getElem?_eq_some_iff.1 h1).1
      obtain ⟨x', h3, rfl⟩ := reaches h.into h.inj x hx
      refine ⟨x', ?_, (hmm x' h3).2 h2⟩
      rw [getD_of hx] at h1
      rw [getD_of (by rw [h.len]; exact h3), h.toas x' h3]
      simpa using h1
    · rintro ⟨x', h1, h2⟩
      have hx : x' < d.toas.length := by rw [← h.len]; exact (List.getElem?_eq_some_iff.1 h1).1
      refine ⟨e x', ?_, (hmm x' hx).1 h2⟩
      rw [getD_of (by rw [h.len]; exact hx), h.toas x' hx] at h1
      rw [getD_of (h.into x' hx)]
      simpa using h1

/-! ## The covariance of one pulsar -/

theorem cov_moved {c : ℝ} {rot : Pos → Pos} {d d' : Std} {e : Nat → Nat} (h : Moved c rot d d' e) {g g' : PowerGP}
    (hg : MovedProc d.toas.length e g g') {T T' : String → ℝ} (hu : g.Usual d.toas T) (hu' : g'.Usual d'.toas T') {i j : Nat}
    (hi : i < d.toas.length) (hj : j < d.toas.length) : g'.cov d'.toas d'.nu T' i j = g.cov d.toas d.nu T (e i) (e j) := by
  unfold PowerGP.cov
  refine congrArg List.sum (Eq.symm ?_)
  have hsp : ∀ km ∈ g.masks, 0 < T km.1 ∧ Bases.tspan (maskSelect d.toas km.2) g.args = .ok (T km.1) := hu.span
  have hsp' : ∀ km ∈ g'.masks, 0 < T' km.1 ∧ Bases.tspan (maskSelect d'.toas km.2) g'.args = .ok (T' km.1) := hu'.span
  have hl : ∀ km ∈ g.masks, km.2.length = d.toas.length := hu.len
  have hmm := hg.masks
  rw [hg.chrom, hg.args, hg.now]
  rw [hg.args] at hsp'
  unfold MovedMasks at hmm
  generalize g.masks = ms at *
  generalize g'.masks = ms' at *
  clear hu hu' hg
  induction hmm with
  | nil => rfl
  | @cons km km' t t' hk _ ih =>
    rw [List.map_cons, List.map_cons]
    have eT : T' km'.1 = T km.1 := by
      refine tspan_moved h (hl km (by simp)) hk.2 (hsp km (by simp)).2 (hsp' km' (by simp)).2
    congr 1
    · have e1 := hk.2 i hi
      have e2 := hk.2 j hj
      have et : d'.toas.getD i 0 - d'.toas.getD j 0 = d.toas.getD (e i) 0 - d.toas.getD (e j) 0 := by
        rw [h.toas i hi, h.toas j hj]
        ring
      rw [eT, et, h.nu i hi, h.nu j hj, hk.1]
      simp only [e1, e2]
    · exact ih (fun km hkm => hsp km (List.mem_cons_of_mem _ hkm)) (fun km hkm => hl km (List.mem_cons_of_mem _ hkm))
        fun km hkm => hsp' km (List.mem_cons_of_mem _ hkm)

theorem key_moved {n : Nat} {e : Nat → Nat} {ms ms' : Dict String Mask} (h : MovedMasks n e ms ms') {key key' : Nat → String}
    (hk : ∀ km ∈ ms, ∀ i, InMask km.2 i → key i = km.1) (hk' : ∀ km ∈ ms', ∀ i, InMask km.2 i → key' i = km.1) {i : Nat} (hi : i < n)
    (hin : ∃ km ∈ ms', InMask km.2 i) : key' i = key (e i) := by
  obtain ⟨km', hm, h1⟩ := hin
  obtain ⟨km, hm0, h2⟩ := Fourier.forall₂_right h km' hm
  rw [hk' km' hm i h1, hk km hm0 (e i) ((h2.2 i hi).1 h1), h2.1]

theorem same_moved {c : ℝ} {rot : Pos → Pos} {d d' : Std} {e : Nat → Nat} (h : Moved c rot d d' e)
    (hl : ∀ km ∈ d.emasks, km.2.length = d.toas.length) (hl' : ∀ km ∈ d'.emasks, km.2.length = d'.toas.length) {same same' : Nat → Nat → Bool}
    (hs : Epoch d.toas d.dt d.emasks same) (hs' : Epoch d'.toas d'.dt d'.emasks same') {i j : Nat} (hi : i < d.toas.length) (hj : j < d.toas.length) :
    same' i j = same (e i) (e j) := by
  rw [Bool.eq_iff_iff, hs'.exact, hs.exact, h.dt]
  have hm := h.emasks
  constructor
  · rintro ⟨km', h1, h2⟩
    obtain ⟨km, h3, h4⟩ := Fourier.forall₂_right hm km' h1
    exact ⟨km, h3, (together_iff h d.dt (hl km h3) (by rw [hl' km' h1, h.len]) h4.2 hi hj).1 h2⟩
  · rintro ⟨km, h1, h2⟩
    obtain ⟨km', h3, h4⟩ := Fourier.forall₂_right hm.flip km h1
    exact ⟨km', h3, (together_iff h d.dt (hl km h1) (by rw [hl' km' h3, h.len]) h4.2 hi hj).2 h2⟩

theorem own_moved {seeded : Int → Bases.Rng} {c : ℝ} {rot : Pos → Pos} {d d' : Std × Labels} {e : Nat → Nat} (h : Moved c rot d.1 d'.1 e)
    (ho : d.1.Ok seeded d.2) (ho' : d'.1.Ok seeded d'.2) {same same' : Nat → Nat → Bool} (hs : Epoch d.1.toas d.1.dt d.1.emasks same)
    (hs' : Epoch d'.1.toas d'.1.dt d'.1.emasks same') {i j : Nat} (hi : i < d.1.toas.length) (hj : j < d.1.toas.length) :
    d'.1.own d'.2 same' i j = d.1.own d.2 same (e i) (e j) := by
  unfold Std.own
  have e1 : (i = j) = (e i = e j) := propext ⟨fun x => x ▸ rfl, h.inj i j hi hj⟩
  have e2 : d'.2.key i = d.2.key (e i) := by
    refine key_moved h.masks ho.key ho'.key hi ?_
    obtain ⟨km, hkm, -⟩ := ho'.masks.exists_unique i (by rw [h.len]; exact hi)
    exact ⟨km, hkm⟩
  have e3 : (d'.1.procs.map fun g => g.cov d'.1.toas d'.1.nu (d'.2.T g) i j).sum =
      (d.1.procs.map fun g => g.cov d.1.toas d.1.nu (d.2.T g) (e i) (e j)).sum := by
    have hp := h.procs
    have hu : ∀ g ∈ d.1.procs, g.Usual d.1.toas (d.2.T g) := fun g hg => (ho.procs g hg).1
    have hu' : ∀ g ∈ d'.1.procs, g.Usual d'.1.toas (d'.2.T g) := fun g hg => (ho'.procs g hg).1
    generalize d.1.procs = gs at *
    generalize d'.1.procs = gs' at *
    clear e1 e2
    induction hp with
    | nil => rfl
    | @cons g g' t t' hg _ ih =>
      rw [List.map_cons, List.map_cons, List.sum_cons, List.sum_cons, cov_moved h hg (hu g (by simp)) (hu' g' (by simp)) hi hj,
        ih (fun g hg => hu g (List.mem_cons_of_mem _ hg)) fun g hg => hu' g (List.mem_cons_of_mem _ hg)]
  have e4 : (if same' i j = true then ((10 : ℝ) ^ d'.1.log10Ecorr (d'.2.ekey i)) ^ 2 else 0) =
      if same (e i) (e j) = true then ((10 : ℝ) ^ d.1.log10Ecorr (d.2.ekey (e i))) ^ 2 else 0 := by
    rw [same_moved h ho.elen ho'.elen hs hs' hi hj]
    split
    · rename_i ht
      have ht' : same' i j = true := by rw [same_moved h ho.elen ho'.elen hs hs' hi hj]; exact ht
      obtain ⟨km, hkm, hin, -⟩ := hs'.near i j ht'
      rw [key_moved h.emasks ho.ekey ho'.ekey hi ⟨km, hkm, hin⟩, h.log10Ecorr]
    · rfl
  have e5 : ∑ k : Fin d'.1.tm.1, spanned d'.1.tm.2 i k * spanned d'.1.tm.2 j k =
      ∑ k : Fin d.1.tm.1, spanned d.1.tm.2 (e i) k * spanned d.1.tm.2 (e j) k := by
    refine Fintype.sum_equiv (finCongr h.wide) _ _ fun k => ?_
    rw [h.tm i hi, h.tm j hj]
    rfl
  rw [e2, e3, e4, e5, h.white, h.errs i hi, h.marg]
  simp only [e1]

/-! ## All pulsars -/

/-- Where the rows of an array go if those of each pulsar go where its map says. -/
def shuffle : List (Nat × (Nat → Nat)) → Nat → Nat
  | [], r => r
  | b :: t, r => if r < b.1 then b.2 r else b.1 + shuffle t (r - b.1)

theorem shuffle_into {l : List (Nat × (Nat → Nat))} (h : ∀ b ∈ l, ∀ i, i < b.1 → b.2 i < b.1) : ∀ r, r < (l.map Prod.fst).sum →
    shuffle l r < (l.map Prod.fst).sum := by
  induction l with
  | nil => intro r hr; simp at hr
  | cons b t ih =>
    intro r hr
    rw [List.map_cons, List.sum_cons] at hr ⊢
    unfold shuffle
    split
    · rename_i hlt
      have := h b (by simp) r hlt
      omega
    · have := ih (fun b hb => h b (List.mem_cons_of_mem _ hb)) (r - b.1) (by omega)
      omega

theorem shuffle_inj {l : List (Nat × (Nat → Nat))} (h : ∀ b ∈ l, ∀ i, i < b.1 → b.2 i < b.1)
    (h' : ∀ b ∈ l, ∀ i j, i < b.1 → j < b.1 → b.2 i = b.2 j → i = j) : ∀ r s, r < (l.map Prod.fst).sum → s < (l.map Prod.fst).sum →
    shuffle l r = shuffle l s → r = s := by
  induction l with
  | nil => intro r s hr; simp at hr
  | cons b t ih =>
    intro r s hr hs he
    rw [List.map_cons, List.sum_cons] at hr hs
    unfold shuffle at he
    have hb := h b (by simp)
    split at he <;> split at he <;> rename_i hr' hs'
    · exact h' b (by simp) r s hr' hs' he
    · have := hb r hr'
      omega
    · have := hb s hs'
      omega
    · have := ih (fun b hb => h b (List.mem_cons_of_mem _ hb)) (fun b hb => h' b (List.mem_cons_of_mem _ hb)) (r - b.1) (s - b.1) (by omega) (by omega) (by omega)
      omega

theorem locate (l : List (Nat × (Nat → Nat))) : ∀ r, r < (l.map Prod.fst).sum → ∃ a b i, l[a]? = some b ∧ i < b.1 ∧
    r = ((l.take a).map Prod.fst).sum + i ∧ shuffle l r = ((l.take a).map Prod.fst).sum + b.2 i := by
  induction l with
  | nil => intro r hr; simp at hr
  | cons b t ih =>
    intro r hr
    rw [List.map_cons, List.sum_cons] at hr
    by_cases hlt : r < b.1
    · exact ⟨0, b, r, rfl, hlt, by simp, by simp [shuffle, hlt]⟩
    · obtain ⟨a, b', i, h1, h2, h3, h4⟩ := ih (r - b.1) (by omega)
      refine ⟨a + 1, b', i, by simpa using h1, h2, ?_, ?_⟩
      · rw [List.take_succ_cons, List.map_cons, List.sum_cons]
        omega
      · rw [List.take_succ_cons, List.map_cons, List.sum_cons]
        simp only [shuffle, if_neg hlt, h4]
        omega

/-- The array `ds'` is the array `ds` with its pulsars moved by the maps `es`. -/
inductive MovedAll (c : ℝ) (rot : Pos → Pos) : List (Std × Labels) → List (Std × Labels) → List (Nat → Nat) → Prop
  | nil : MovedAll c rot [] [] []
  | cons {d d' ds ds' e es} : Moved c rot d.1 d'.1 e → MovedAll c rot ds ds' es → MovedAll c rot (d :: ds) (d' :: ds') (e :: es)

/-- The rows of the pulsars and where they go. -/
def rows (ds : List (Std × Labels)) (es : List (Nat → Nat)) : List (Nat × (Nat → Nat)) :=
  List.zipWith (fun d e => (d.1.toas.length, e)) ds es

namespace MovedAll

variable {c : ℝ} {rot : Pos → Pos} {ds ds' : List (Std × Labels)} {es : List (Nat → Nat)}

theorem get (h : MovedAll c rot ds ds' es) : ∀ {a : Nat} {b : Nat × (Nat → Nat)}, (rows ds es)[a]? = some b →
    ∃ d d', ds[a]? = some d ∧ ds'[a]? = some d' ∧ b.1 = d.1.toas.length ∧ Moved c rot d.1 d'.1 b.2 := by
  induction h with
  | nil => intro a b h; simp [rows] at h
  | @cons d d' ds ds' e es hm _ ih =>
    intro a b hab
    cases a with
    | zero =>
      simp only [rows, List.zipWith_cons_cons, List.getElem?_cons_zero, Option.some.injEq] at hab
      subst hab
      exact ⟨d, d', rfl, rfl, rfl, hm⟩
    | succ a =>
      simp only [rows, List.zipWith_cons_cons, List.getElem?_cons_succ] at hab
      exact ih hab

theorem mem (h : MovedAll c rot ds ds' es) {b : Nat × (Nat → Nat)} (hb : b ∈ rows ds es) :
    ∃ d d', b.1 = d.1.toas.length ∧ Moved c rot (d : Std × Labels).1 (d' : Std × Labels).1 b.2 := by
  obtain ⟨a, ha⟩ := List.mem_iff_getElem?.1 hb
  obtain ⟨d, d', -, -, h1, h2⟩ := h.get ha
  exact ⟨d, d', h1, h2⟩

theorem take_fst (h : MovedAll c rot ds ds' es) : ∀ a, (((rows ds es).take a).map Prod.fst).sum = size (ds.take a) ∧
    size (ds'.take a) = size (ds.take a) := by
  induction h with
  | nil => intro a; simp [rows, size]
  | @cons d d' ds ds' e es hm _ ih =>
    intro a
    cases a with
    | zero => simp [size]
    | succ a =>
      obtain ⟨h1, h2⟩ := ih a
      simp only [size, rows, List.zipWith_cons_cons, List.take_succ_cons, List.map_cons, List.sum_cons] at h1 h2 ⊢
      rw [h1, h2, hm.len]
      exact ⟨rfl, rfl⟩

theorem fst (h : MovedAll c rot ds ds' es) : ((rows ds es).map Prod.fst).sum = size ds ∧ size ds' = size ds := by
  induction h with
  | nil => simp [rows, size]
  | @cons d d' ds ds' e es hm _ ih =>
    obtain ⟨h1, h2⟩ := ih
    simp only [size, rows, List.zipWith_cons_cons, List.map_cons, List.sum_cons] at h1 h2 ⊢
    rw [h1, h2, hm.len]
    exact ⟨rfl, rfl⟩

theorem length (h : MovedAll c rot ds ds' es) : ds'.length = ds.length := by
  induction h with
  | nil => rfl
  | cons _ _ ih => simp [ih]

theorem wides (h : MovedAll c rot ds ds' es) : (ds'.map fun d => d.1.wide).sum = (ds.map fun d => d.1.wide).sum := by
  induction h with
  | nil => rfl
  | @cons d d' ds ds' e es hm _ ih =>
    have hw : d'.1.wide = d.1.wide := by simp only [Std.wide, hm.marg, hm.wide]
    rw [List.map_cons, List.map_cons, List.sum_cons, List.sum_cons, ih, hw]

theorem rect_eq (h : MovedAll c rot ds ds' es) : ∀ r k, rect (ds'.map fun d => (d.1.toas.length, d.1.wide, spanned d.1.tm.2)) r k =
    rect (ds.map fun d => (d.1.toas.length, d.1.wide, spanned d.1.tm.2)) (shuffle (rows ds es) r) k := by
  induction h with
  | nil => intro r k; rfl
  | @cons d d' ds ds' e es hm _ ih =>
    intro r k
    have hw : d'.1.wide = d.1.wide := by simp only [Std.wide, hm.marg, hm.wide]
    simp only [List.map_cons, rect, rows, List.zipWith_cons_cons, shuffle, hm.len, hw]
    by_cases hlt : r < d.1.toas.length
    · have h1 := hm.into r hlt
      simp only [if_pos hlt, if_pos h1, hm.tm r hlt]
    · have h1 : ¬ d.1.toas.length + shuffle (List.zipWith (fun d e => (d.1.toas.length, e)) ds es) (r - d.1.toas.length) < d.1.toas.length := by
        omega
      simp only [if_neg hlt, if_neg h1, Nat.add_sub_cancel_left]
      congr 1
      exact ih _ _

theorem concat_eq (h : MovedAll c rot ds ds' es) : ∀ r,
    concatOf (ds'.map fun d => ⟨d.1.toas.length, d.1.res - d.1.delays.reduceOption.sum⟩) r =
      concatOf (ds.map fun d => ⟨d.1.toas.length, d.1.res - d.1.delays.reduceOption.sum⟩) (shuffle (rows ds es) r) := by
  induction h with
  | nil => intro r; rfl
  | @cons d d' ds ds' e es hm _ ih =>
    intro r
    simp only [List.map_cons, concatOf, rows, List.zipWith_cons_cons, shuffle]
    by_cases hlt : r < d.1.toas.length
    · have h1 := hm.into r hlt
      have h2 : r < d'.1.toas.length := by rw [hm.len]; exact hlt
      rw [dif_pos h2, if_pos hlt, dif_pos h1, Pi.sub_apply, Pi.sub_apply, hm.res r h2 h1, hm.delays r h2 h1]
    · rw [dif_neg (by rw [hm.len]; exact hlt), if_neg hlt, dif_neg (by omega), Nat.add_sub_cancel_left, hm.len]
      exact ih _

theorem basis (h : MovedAll c rot ds ds' es) (h0 : ∀ d ∈ ds, d.1.procs ≠ [] ∨ d.1.marg = false) : ∀ d ∈ ds', d.1.procs ≠ [] ∨ d.1.marg = false := by
  induction h with
  | nil => intro d hd; cases hd
  | @cons d d' ds ds' e es hm _ ih =>
    intro x hx
    rcases List.mem_cons.1 hx with rfl | hx
    · refine (h0 d (by simp)).imp (fun h e => h ?_) (fun h => hm.marg.trans h)
      exact List.length_eq_zero_iff.1 (hm.procs.length_eq.trans (List.length_eq_zero_iff.2 e))
    · exact ih (fun d hd => h0 d (by simp [hd])) x hx

theorem poses (h : MovedAll c rot ds ds' es) : ds'.map (fun d => d.1.pos) = ds.map fun d => rot d.1.pos := by
  induction h with
  | nil => rfl
  | cons hm _ ih => simp only [List.map_cons, ih, hm.pos]

end MovedAll

/-! ## The likelihood -/

/-- **C126**: neither the order in which the TOAs of the pulsars are listed, nor the origin of time, nor a change of the directions that leaves
the overlaps unchanged changes the likelihood, nor does the state of the random generator. -/
theorem C126_moved (hash : Col ℝ → H) (hh : Function.Injective hash) (svd : ∀ {n : Nat} (M : Matrix (Fin n) (Fin n) ℝ), Svd M)
    (method : Method) (argsort : List ℝ → List Nat) (hsort : ∀ l, Quantize.IsArgsort l (argsort l)) (seeded : Int → Bases.Rng)
    (orf : Nat → Pos → Pos → ℝ) (ks : List Plaw) (hu : ∀ k ∈ ks, k.Usual) (hs : Suits method ks) (c : ℝ) (rot : Pos → Pos)
    (ds ds' : List (Std × Labels)) (h0 : ks ≠ [] ∨ ∀ d ∈ ds, d.1.procs ≠ [] ∨ d.1.marg = false) (es : List (Nat → Nat))
    (hmv : MovedAll c rot ds ds' es) (hrot : ∀ c, c < ks.length → ∀ d ∈ ds, ∀ d' ∈ ds, orf c (rot d.1.pos) (rot d'.1.pos) = orf c d.1.pos d'.1.pos)
    (hds : ∀ d ∈ ds, d.1.Ok seeded d.2) (hds' : ∀ d ∈ ds', d.1.Ok seeded d.2)
    (horf : ∀ c, c < ks.length → (orfMatrix (orf c) fun u : Fin ds.length => (ds[u]).1.pos).PosDef)
    (hd : ∀ k ∈ ks, k.combine = true → ∀ d ∈ ds, DistinctAt k.args.nmodes k.T d.1.toas)
    (hd' : ∀ k ∈ ks, k.combine = true → ∀ d ∈ ds', DistinctAt k.args.nmodes k.T d.1.toas) (rng rng' : Bases.Rng) :
    ∃ ps ps' v, pta argsort seeded (ks.map Plaw.common) (ds.map Prod.fst) rng = .ok ps ∧
      pta argsort seeded (ks.map Plaw.common) (ds'.map Prod.fst) rng' = .ok ps' ∧
      likelihood hash svd method orf ps = .ok (some v) ∧ likelihood hash svd method orf ps' = .ok (some v) := by
  have h0' : ks ≠ [] ∨ ∀ d ∈ ds', d.1.procs ≠ [] ∨ d.1.marg = false := h0.imp_right hmv.basis
  have hget : ∀ (u : Nat) (h : u < ds'.length) (h' : u < ds.length), (ds'[u]).1.pos = rot (ds[u]).1.pos := by
    intro u h h'
    have := congrArg (fun l => l[u]?) hmv.poses
    simpa [List.getElem?_eq_getElem h, List.getElem?_eq_getElem h'] using this
  have horf' : ∀ c, c < ks.length → (orfMatrix (orf c) fun u : Fin ds'.length => (ds'[u]).1.pos).PosDef := by
    intro c hc
    have e : (orfMatrix (orf c) fun u : Fin ds'.length => (ds'[u]).1.pos) =
        (orfMatrix (orf c) fun u : Fin ds.length => (ds[u]).1.pos).submatrix (finCongr hmv.length) (finCongr hmv.length) := by
      ext u v
      have hu : u.1 < ds.length := hmv.length ▸ u.2
      have hv : v.1 < ds.length := hmv.length ▸ v.2
      show orf c (ds'[u.1]).1.pos (ds'[v.1]).1.pos = orf c (ds[u.1]).1.pos (ds[v.1]).1.pos
      rw [hget u.1 u.2 hu, hget v.1 v.2 hv]
      exact hrot c hc _ (List.getElem_mem _) _ (List.getElem_mem _)
    rw [e]
    exact (horf c hc).submatrix (finCongr hmv.length).injective
  obtain ⟨ps, p1, same, p2, C, -, p3, p4⟩ := C116_array hash hh svd method argsort hsort seeded orf ks hu hs ds h0 hds horf hd rng
  obtain ⟨ps', q1, same', q2, C', -, q3, q4⟩ := C116_array hash hh svd method argsort hsort seeded orf ks hu hs ds' h0' hds' horf' hd' rng'
  refine ⟨ps, ps', _, p1, q1, p4, ?_⟩
  rw [q4]
  congr 2
  have hin : ∀ b ∈ rows ds es, ∀ i, i < b.1 → b.2 i < b.1 := by
    intro b hb
    obtain ⟨d, d', h1, h2⟩ := hmv.mem hb
    rw [h1]
    exact h2.into
  have hinj : ∀ b ∈ rows ds es, ∀ i j, i < b.1 → j < b.1 → b.2 i = b.2 j → i = j := by
    intro b hb
    obtain ⟨d, d', h1, h2⟩ := hmv.mem hb
    rw [h1]
    exact h2.inj
  let f : Fin (size ds') → Fin (size ds) := fun r => ⟨shuffle (rows ds es) r, by
    have := shuffle_into hin r (by rw [hmv.fst.1, ← hmv.fst.2]; exact r.2)
    rwa [hmv.fst.1] at this⟩
  have hf : Function.Injective f := fun r s h => Fin.ext (shuffle_inj hin hinj r s (by rw [hmv.fst.1, ← hmv.fst.2]; exact r.2)
    (by rw [hmv.fst.1, ← hmv.fst.2]; exact s.2) (congrArg Fin.val h))
  let σ : Fin (size ds') ≃ Fin (size ds) := Equiv.ofBijective f ((Fintype.bijective_iff_injective_and_card f).2 ⟨hf, by simp [hmv.fst.2]⟩)
  refine margLog_equiv σ (finCongr hmv.wides) C' C (columns ds') (columns ds) (residuals ds') (residuals ds) (fun r s => ?_) (fun r k => ?_)
    fun r => ?_
  · obtain ⟨a, b, i, h1, h2, h3, h4⟩ := locate (rows ds es) r (by rw [hmv.fst.1, ← hmv.fst.2]; exact r.2)
    obtain ⟨a', b', i', h1', h2', h3', h4'⟩ := locate (rows ds es) s (by rw [hmv.fst.1, ← hmv.fst.2]; exact s.2)
    obtain ⟨d, d', g1, g2, g3, g4⟩ := hmv.get h1
    obtain ⟨x, x', g1', g2', g3', g4'⟩ := hmv.get h1'
    rw [(hmv.take_fst a).1] at h3 h4
    rw [(hmv.take_fst a').1] at h3' h4'
    rw [g3] at h2
    rw [g3'] at h2'
    rw [q3 a a' d' x' g2 g2' i i' (by rw [g4.len]; exact h2) (by rw [g4'.len]; exact h2') r s (by rw [(hmv.take_fst a).2]; exact h3)
      (by rw [(hmv.take_fst a').2]; exact h3'),
      p3 a a' d x g1 g1' (b.2 i) (b'.2 i') (g4.into i h2) (g4'.into i' h2') (σ r) (σ s) h4 h4']
    congr 1
    · by_cases haa : a = a'
      · subst haa
        rw [if_pos rfl, if_pos rfl]
        have e1 : b' = b := Option.some.inj (h1' ▸ h1)
        have e2 : x = d := Option.some.inj (g1' ▸ g1)
        subst e1 e2
        exact own_moved g4 (hds _ (List.mem_of_getElem? g1)) (hds' _ (List.mem_of_getElem? g2)) (p2 a _ g1) (q2 a _ g2) h2 h2'
      · rw [if_neg haa, if_neg haa]
    · refine Finset.sum_congr rfl fun k _ => ?_
      rw [g4.pos, g4'.pos, hrot k k.2 d (List.mem_of_getElem? g1) x (List.mem_of_getElem? g1')]
      congr 1
      unfold Plaw.cov
      rw [g4.toas i h2, g4'.toas i' h2', add_sub_add_right_eq_sub]
  · exact hmv.rect_eq r k
  · exact hmv.concat_eq r

/-- A map of directions that keeps the angles between them keeps the overlaps of Hellings and Downs. -/
theorem hd_rotated (rot : Pos → Pos) (hrot : ∀ p q, Orf.dot (rot p) (rot q) = Orf.dot p q) (p q : Pos) :
    Orf.hdOrf (rot p) (rot q) = Orf.hdOrf p q := by
  have hsq : ∀ x y : Pos, Orf.dot x x - 2 * Orf.dot x y + Orf.dot y y = ∑ c, (x c - y c) ^ 2 := by
    intro x y
    simp only [Orf.dot, Fin.sum_univ_three]
    ring
  have heq : ∀ x y : Pos, x = y ↔ Orf.dot x x - 2 * Orf.dot x y + Orf.dot y y = 0 := by
    intro x y
    rw [hsq]
    constructor
    · rintro rfl
      simp
    · intro h
      funext c
      have := (Finset.sum_eq_zero_iff_of_nonneg fun c _ => sq_nonneg (x c - y c)).1 h c (Finset.mem_univ c)
      linarith [pow_eq_zero_iff (two_ne_zero) |>.1 this]
  have e : rot p = rot q ↔ p = q := by rw [heq, heq p q, hrot, hrot, hrot]
  unfold Orf.hdOrf
  simp only [e, hrot]

/-- C126: with the overlaps of Hellings and Downs the likelihood does not change if the sky is rotated or reflected, in pulsars of different
directions, whatever the method. -/
theorem C126_background (hash : Col ℝ → H) (hh : Function.Injective hash) (svd : ∀ {n : Nat} (M : Matrix (Fin n) (Fin n) ℝ), Svd M)
    (method : Method) (hm : method ≠ .other) (argsort : List ℝ → List Nat) (hsort : ∀ l, Quantize.IsArgsort l (argsort l))
    (seeded : Int → Bases.Rng) (k : Plaw) (hu : k.Usual) (c : ℝ) (rot : Pos → Pos) (hrot : ∀ p q, Orf.dot (rot p) (rot q) = Orf.dot p q)
    (ds ds' : List (Std × Labels)) (es : List (Nat → Nat)) (hmv : MovedAll c rot ds ds' es) (hds : ∀ d ∈ ds, d.1.Ok seeded d.2)
    (hds' : ∀ d ∈ ds', d.1.Ok seeded d.2) (hunit : ∀ d ∈ ds, Orf.IsUnit3 d.1.pos) (hne : (ds.map fun d => d.1.pos).Nodup)
    (hd : k.combine = true → ∀ d ∈ ds, DistinctAt k.args.nmodes k.T d.1.toas)
    (hd' : k.combine = true → ∀ d ∈ ds', DistinctAt k.args.nmodes k.T d.1.toas) (rng rng' : Bases.Rng) :
    ∃ ps ps' v, pta argsort seeded [k.common] (ds.map Prod.fst) rng = .ok ps ∧ pta argsort seeded [k.common] (ds'.map Prod.fst) rng' = .ok ps' ∧
      likelihood hash svd method (fun _ => Orf.hdOrf) ps = .ok (some v) ∧ likelihood hash svd method (fun _ => Orf.hdOrf) ps' = .ok (some v) := by
  refine C126_moved hash hh svd method argsort hsort seeded _ [k] (by simpa using hu) (.inr (.inr ⟨hm, by simp⟩)) c rot ds ds' (.inl (by simp)) es hmv
    (fun _ _ d _ d' _ => hd_rotated rot hrot _ _) hds hds' (fun c _ => ?_) (by simpa using hd) (by simpa using hd') rng rng'
  refine (Orf.C71_hd_distinct _ (fun i => hunit _ (List.getElem_mem _)) ?_).1
  intro u v huv
  have hinj := List.nodup_iff_injective_get.1 hne
  have := @hinj ⟨u.1, by simp⟩ ⟨v.1, by simp⟩ (by simpa using huv)
  simpa [Fin.ext_iff] using this

/-! ## An example -/

/-- The first pulsar of C116 with its TOAs in the other order, a hundred seconds later, and its direction rotated. -/
noncomputable def exA' : Std where
  toas := [101, 100]
  nu := [1400, 1400]
  errs := [2, 1]
  pos := ![0, 1, 0]
  res := fun _ => 1
  white := .t2 (fun _ => 1) fun _ => -6
  masks := [("", [true, true])]
  dt := 2
  emasks := [("", [true, true])]
  log10Ecorr := fun _ => -6
  procs := [exProc]
  rng := fun _ => 5
  tm := ⟨1, Matrix.of fun _ _ => 1⟩
  marg := true

/-- The second pulsar, a hundred seconds later and rotated, with its TOAs in the same order. -/
noncomputable def exB' : Std := { exA' with
  toas := [100, 101], errs := [1, 2], res := fun _ => 1, delays := [], tm := ⟨1, Matrix.of fun _ _ => 1⟩, pos := ![0, 0, 1], emasks := [], marg := false }

/-- The axes exchanged in a cycle. -/
def cycle (p : Pos) : Pos := ![p 2, p 0, p 1]

theorem ex_moved : MovedAll 100 cycle [(exA, exL), (exB, exL)] [(exA', exL), (exB', exL)] [fun i => 1 - i, id] := by
  have hb : ∀ i : Nat, i < 2 → i = 0 ∨ i = 1 := fun i hi => by omega
  have hmask : MovedMasks 2 (fun i => 1 - i) [("", [true, true])] [("", [true, true])] := by
    refine .cons ⟨rfl, fun i hi => ?_⟩ .nil
    rcases hb i hi with rfl | rfl <;> simp [InMask]
  have hmask' : MovedMasks 2 id [("", [true, true])] [("", [true, true])] := .cons ⟨rfl, fun i _ => Iff.rfl⟩ .nil
  refine .cons ⟨rfl, ?_, ?_, ?_, ?_, ?_, ?_, fun _ _ _ => rfl, fun _ _ _ => rfl, rfl, hmask, rfl, hmask, rfl, .cons ⟨rfl, rfl, rfl, hmask⟩ .nil, rfl, rfl, ?_⟩
    (.cons ⟨rfl, fun _ h => h, fun _ _ _ _ h => h, ?_, ?_, ?_, ?_, fun _ _ _ => rfl, fun _ _ _ => rfl, rfl, hmask', rfl, .nil, rfl,
      .cons ⟨rfl, rfl, rfl, hmask'⟩ .nil, rfl, rfl, ?_⟩ .nil)
  · intro i hi
    have hi : i < 2 := hi
    show 1 - i < 2
    omega
  · intro i j hi hj h
    have hi : i < 2 := hi
    have hj : j < 2 := hj
    have h : 1 - i = 1 - j := h
    omega
  · intro i hi
    rcases hb i hi with rfl | rfl <;> norm_num [exA, exA']
  · intro i hi
    rcases hb i hi with rfl | rfl <;> norm_num [exA, exA']
  · intro i hi
    rcases hb i hi with rfl | rfl <;> norm_num [exA, exA']
  · funext k
    fin_cases k <;> simp [exA, exA', cycle]
  · intro i hi k
    show (if h : i < 2 ∧ k < 1 then (1 : ℝ) else 0) = if h : 1 - i < 2 ∧ k < 1 then (1 : ℝ) else 0
    by_cases hk : k < 1 <;> rcases hb i hi with rfl | rfl <;> simp [hk]
  · intro i hi
    rcases hb i hi with rfl | rfl <;> norm_num [exA, exB, exA', exB']
  · intro i hi
    rcases hb i hi with rfl | rfl <;> norm_num [exA, exB, exA', exB']
  · intro i hi
    rcases hb i hi with rfl | rfl <;> norm_num [exA, exB, exA', exB']
  · funext k
    fin_cases k <;> simp [exB, exB', cycle]
  · intro i hi k
    rfl

theorem ex_ok' (seeded : Int → Bases.Rng) : exA'.Ok seeded exL ∧ exB'.Ok seeded exL := by
  have hp : IsPartition 2 [("", [true, true])] := by
    refine ⟨by simp, by simp, fun i hi => ⟨("", [true, true]), ⟨by simp, ?_⟩, fun y hy => by simpa using hy.1⟩⟩
    unfold InMask
    interval_cases i <;> rfl
  have hproc : ∀ l : List ℝ, l.length = 2 → exProc.Usual l (fun _ => 4) ∧ exProc.Distinct seeded l [1400, 1400] := by
    intro l hl
    refine ⟨⟨⟨rfl, rfl, rfl, rfl⟩, rfl, by simp [exProc], by simp [exProc], by simp [exProc], by simp [exProc, hl], fun km _ => ⟨by norm_num, rfl⟩⟩, ?_⟩
    intro h
    cases h
  have hprocs : ∀ l : List ℝ, l.length = 2 → ∀ g ∈ [exProc], g.Usual l (fun _ => 4) ∧ g.Distinct seeded l [1400, 1400] := by
    intro l hl g hg
    obtain rfl : g = exProc := by simpa using hg
    exact hproc l hl
  have hin : Function.Injective (Matrix.of fun (_ : Fin 2) (_ : Fin 1) => (1 : ℝ)).mulVec := by
    intro x y h
    have := congrFun h 0
    funext c
    fin_cases c
    simpa [Matrix.mulVec, dotProduct] using this
  have hm : ∀ km ∈ [("", [true, true])], ∀ i : Nat, InMask km.2 i → "" = km.1 := by
    intro km hkm i _
    obtain rfl : km = ("", [true, true]) := by simpa using hkm
    rfl
  refine ⟨⟨by simp [exA'], rfl, rfl, fun _ => one_ne_zero, hp, hm, by norm_num [exA'], by simp [exA'], by simp [exA'], ?_, ?_, hm, hprocs _ rfl, by simp [exA'],
      (fun h => by cases h), fun _ => hin⟩,
    ⟨by simp [exB', exA'], rfl, rfl, fun _ => one_ne_zero, hp, hm, by norm_num [exA', exB'], by simp [exB', exA'], by simp [exB', exA'], ?_, by simp [exB', exA'],
      by simp [exB', exA'], hprocs _ rfl, by simp [exA', exB'], fun _ j j' _ => Subsingleton.elim (α := Fin 1) j j', (fun h => by cases h)⟩⟩
  · intro km hkm km' hkm' _ _ _
    have h1 : km = ("", [true, true]) := by simpa [exA'] using hkm
    have h2 : km' = ("", [true, true]) := by simpa [exA'] using hkm'
    rw [h1, h2]
  · intro km hkm
    have h1 : km = ("", [true, true]) := by simpa [exA'] using hkm
    exact ⟨0, by rw [h1]; rfl⟩
  · intro km hkm
    simp [exB', exA'] at hkm

/-- The likelihood of the array of C116 moved. -/
example (hash : Col ℝ → H) (hh : Function.Injective hash) (svd : ∀ {n : Nat} (M : Matrix (Fin n) (Fin n) ℝ), Svd M)
    (argsort : List ℝ → List Nat) (hsort : ∀ l, Quantize.IsArgsort l (argsort l)) (seeded : Int → Bases.Rng) (rng rng' : Bases.Rng) :
    ∃ ps ps' v, pta argsort seeded [(⟨{ nmodes := 1 }, false, -14, 13 / 3, 4⟩ : Plaw).common] [exA, exB] rng = .ok ps ∧
      pta argsort seeded [(⟨{ nmodes := 1 }, false, -14, 13 / 3, 4⟩ : Plaw).common] [exA', exB'] rng' = .ok ps' ∧
      likelihood hash svd .cliques (fun _ => Orf.hdOrf) ps = .ok (some v) ∧ likelihood hash svd .cliques (fun _ => Orf.hdOrf) ps' = .ok (some v) := by
  have mem : ∀ d ∈ [(exA, exL), (exB, exL)], d = (exA, exL) ∨ d = (exB, exL) := by
    intro d hd
    simpa using hd
  refine C126_background hash hh svd .cliques (by simp) argsort hsort seeded ⟨{ nmodes := 1 }, false, -14, 13 / 3, 4⟩
    ⟨⟨rfl, rfl, rfl, rfl⟩, rfl, rfl, by simp, by norm_num⟩ 100 cycle ?_ [(exA, exL), (exB, exL)] [(exA', exL), (exB', exL)] _ ex_moved ?_ ?_ ?_ ?_
    (fun h => by cases h) (fun h => by cases h) rng rng'
  · intro p q
    simp only [Orf.dot, cycle, Fin.sum_univ_three]
    simp
    ring
  · intro d hd
    rcases mem d hd with rfl | rfl
    · exact (ex_ok seeded).1
    · exact (ex_ok seeded).2
  · intro d hd
    have : d = (exA', exL) ∨ d = (exB', exL) := by simpa using hd
    rcases this with rfl | rfl
    · exact (ex_ok' seeded).1
    · exact (ex_ok' seeded).2
  · intro d hd
    rcases mem d hd with rfl | rfl
    · norm_num [exA, Orf.IsUnit3, Orf.dot, Fin.sum_univ_three]
      rfl
    · norm_num [exB, Orf.IsUnit3, Orf.dot, Fin.sum_univ_three]
      rfl
  · have hne : exA.pos ≠ exB.pos := by
      intro h
      have := congrFun h 0
      simp [exA, exB] at this
    simpa using hne

end Verif.StdArray
