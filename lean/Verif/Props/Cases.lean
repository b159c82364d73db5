import Verif.Props.Shared
import Verif.Props.SameCov
import Verif.Props.Library

/-! Arrays of two pulsars that meet the hypotheses of C107 and C112: own noise, a background and a clock error on one column. -/

namespace Verif.Joined

open Verif Verif.Likelihood Verif.Noise Verif.Combine Verif.Collect Verif.Joint Matrix
open Verif.Kernel (Kern Arr)
open Verif.PhiInv (toMatrix)
open Verif.Partition (Svd)
open Verif.Orf (Pos orfMatrix)

variable {H : Type} [DecidableEq H]

/-- A process of one column, of variance `v`. -/
noncomputable def proc (x : ℝ × Option Nat) : GSig := ⟨true, false, some [fun _ => 1], [fun _ => 1], .one 1 fun _ => x.1, x.2⟩

/-- A pulsar with one TOA and processes that share one column. -/
noncomputable def many (pos : Pos) (l : List (ℝ × Option Nat)) : JPsr where
  n := 1
  pos := pos
  res := fun _ => 1
  delays := []
  noise := [some (.base (.arr fun _ => 1))]
  gps := l.map proc
  logprior := []

theorem many_mem {pos : Pos} {l : List (ℝ × Option Nat)} {g : GSig} (hg : g ∈ (many pos l).gps) : ∃ x ∈ l, g = proc x := by
  obtain ⟨x, hx, rfl⟩ := List.mem_map.1 hg
  exact ⟨x, hx, rfl⟩

theorem many_noise (ps : List JPsr) (h : ∀ p ∈ ps, ∃ pos l, p = many pos l) :
    NoiseIs ps (fun _ => 0) (fun _ => Matrix.diagonal fun _ => 1) fun _ => 0 := by
  intro p hp
  obtain ⟨pos, l, rfl⟩ := h p hp
  exact ⟨.base (.arr fun _ => 1), rfl, whole_base (arr_exact (fun _ : Fin 1 => (1 : ℝ)) fun _ => one_pos) 0⟩

theorem ordered_fixed : ∀ (sigs : List (BSig ℝ)), (∀ s ∈ sigs, s.varying = false) → Ordered sigs
  | [], _ => trivial
  | s :: t, h => ⟨fun _ hv => absurd hv (by simp [h s (by simp)]), ordered_fixed t fun s hs => h s (by simp [hs])⟩

theorem many_apt (hash : Col ℝ → H) (orf : Nat → Pos → Pos → ℝ) (l : List (ℝ × Option Nat)) (hl : l ≠ []) (hv : ∀ x ∈ l, 0 < x.1)
    (p q : Pos) (hc : ∀ c, (l.filter fun x => decide (x.2 = some c)).length ≤ 1)
    (ho : ∀ c, ∃ b, (l.filter fun x => decide (x.2 = some c)).map (fun x => x.2) ≠ [] →
      orf c p p = b ∧ orf c q q = b ∧ |orf c p q| < b ∧ orf c q p = orf c p q) :
    Apt hash orf [many p l, many q l] := by
  have hall : ∀ x ∈ [many p l, many q l], ∃ pos, x = many pos l := by
    intro x hx
    simp only [List.mem_cons, List.not_mem_nil, or_false] at hx
    rcases hx with rfl | rfl <;> exact ⟨_, rfl⟩
  have hof : ∀ c, ofClass [many p l, many q l] c =
      ((l.filter fun x => decide (x.2 = some c)).map fun x => (Arr.one 1 fun _ => x.1, p)) ++
      ((l.filter fun x => decide (x.2 = some c)).map fun x => (Arr.one 1 fun _ => x.1, q)) := by
    intro c
    simp [ofClass, many, proc, List.filter_map, Function.comp_def]
    congr!
  refine ⟨?_, ?_, ?_, ?_, ?_, ?_, ?_⟩
  · intro x hx g hg F hF
    obtain ⟨pos, rfl⟩ := hall x hx
    obtain ⟨y, hy, rfl⟩ := many_mem hg
    have hF : some [fun _ => 1] = some F := hF
    cases hF
    refine ⟨by simp, rfl, fun _ => rfl, ?_, ?_⟩
    · rcases y with ⟨v, _ | c⟩ <;> rfl
    · rcases y with ⟨v, _ | c⟩ <;> intro _ _ <;> simp
  · intro x hx
    obtain ⟨pos, rfl⟩ := hall x hx
    refine ordered_fixed _ fun s hs => ?_
    obtain ⟨g, hg, rfl⟩ := List.mem_map.1 hs
    obtain ⟨y, hy, rfl⟩ := many_mem hg
    rfl
  · intro x hx s hs s' hs' F F' hF hF' c hc c' hc' _
    obtain ⟨pos, rfl⟩ := hall x hx
    obtain ⟨g, hg, rfl⟩ := List.mem_map.1 hs
    obtain ⟨y, hy, rfl⟩ := many_mem hg
    obtain ⟨g', hg', rfl⟩ := List.mem_map.1 hs'
    obtain ⟨y', hy', rfl⟩ := many_mem hg'
    have hF : some [fun _ => 1] = some F := hF
    have hF' : some [fun _ => 1] = some F' := hF'
    cases hF
    cases hF'
    rw [List.mem_singleton.1 hc, List.mem_singleton.1 hc']
  · intro x hx
    obtain ⟨pos, rfl⟩ := hall x hx
    obtain ⟨y, hy⟩ := List.exists_mem_of_ne_nil l hl
    exact ⟨proc y, List.mem_map.2 ⟨y, hy, rfl⟩, by simp [proc]⟩
  · intro x hx g hg _
    obtain ⟨pos, rfl⟩ := hall x hx
    obtain ⟨y, hy, rfl⟩ := many_mem hg
    have : toMatrix 1 (amat (.one 1 fun _ => y.1)) = Matrix.diagonal fun _ => y.1 := by
      ext i j
      fin_cases i; fin_cases j
      simp [toMatrix, amat]
    show (toMatrix 1 (amat (.one 1 fun _ => y.1))).PosDef
    rw [this, Matrix.posDef_diagonal_iff]
    exact fun _ => hv y hy
  · intro c u hu v hv
    rw [hof] at hu hv
    have h1 := hc c
    generalize (l.filter fun x => decide (x.2 = some c)) = m at h1 hu hv
    match m, h1 with
    | [], _ => simp at hu
    | [y], _ =>
      simp only [List.map_cons, List.map_nil, List.cons_append, List.nil_append, List.mem_cons, List.not_mem_nil, or_false] at hu hv
      rcases hu with rfl | rfl <;> rcases hv with rfl | rfl <;> rfl
  · intro c
    have h1 := hc c
    obtain ⟨b, hb⟩ := ho c
    suffices key : ∀ L : List (Arr ℝ × Pos), L = ((l.filter fun x => decide (x.2 = some c)).map fun x => (Arr.one 1 fun _ => x.1, p)) ++
        ((l.filter fun x => decide (x.2 = some c)).map fun x => (Arr.one 1 fun _ => x.1, q)) →
        (orfMatrix (orf c) fun u : Fin L.length => (L[u]).2).PosDef from key _ (hof c)
    generalize (l.filter fun x => decide (x.2 = some c)) = m at h1 hb
    match m, h1 with
    | [], _ =>
      rintro L rfl
      refine Matrix.PosDef.of_dotProduct_mulVec_pos (by ext i; exact i.elim0) fun x hx => ?_
      exact absurd (by ext i; exact i.elim0) hx
    | [y], _ =>
      rintro L rfl
      obtain ⟨e1, e2, e3, e4⟩ := hb (by simp)
      have e3 := abs_lt.1 e3
      refine Matrix.PosDef.of_dotProduct_mulVec_pos ?_ fun x hx => ?_
      · ext i j
        fin_cases i <;> fin_cases j <;> simp [orfMatrix, e4]
      · change Fin 2 → ℝ at x
        have : star x ⬝ᵥ (orfMatrix (orf c) fun u : Fin 2 => ([((Arr.one 1 fun _ => y.1 : Arr ℝ), p), (Arr.one 1 fun _ => y.1, q)][u]).2) *ᵥ x
            = b * x 0 ^ 2 + b * x 1 ^ 2 + 2 * orf c p q * (x 0 * x 1) := by
          simp [dotProduct, mulVec, Fin.sum_univ_two, orfMatrix, e1, e2, e4]
          ring
        show 0 < star x ⬝ᵥ (orfMatrix (orf c) fun u : Fin 2 => ([((Arr.one 1 fun _ => y.1 : Arr ℝ), p), (Arr.one 1 fun _ => y.1, q)][u]).2) *ᵥ x
        rw [this]
        have hne : x 0 ≠ 0 ∨ x 1 ≠ 0 := by
          by_contra h
          push Not at h
          exact hx (by ext i; fin_cases i <;> simp [h.1, h.2])
        have hpos : 0 < x 0 ^ 2 + x 1 ^ 2 := by
          rcases hne with h | h
          · have := sq_nonneg (x 1); have := sq_pos_of_ne_zero h; linarith
          · have := sq_nonneg (x 0); have := sq_pos_of_ne_zero h; linarith
        by_cases hs : 0 ≤ x 0 * x 1
        · nlinarith [sq_nonneg (x 0 - x 1)]
        · push Not at hs
          nlinarith [sq_nonneg (x 0 + x 1)]

theorem many_same (l : List (ℝ × Option Nat)) (p q : Pos) : SameCols [many p l, many q l] := by
  have hall : ∀ x ∈ [many p l, many q l], ∃ pos, x = many pos l := by
    intro x hx
    simp only [List.mem_cons, List.not_mem_nil, or_false] at hx
    rcases hx with rfl | rfl <;> exact ⟨_, rfl⟩
  refine ⟨?_, ?_, ?_, ?_⟩
  · intro x hx g hg _
    obtain ⟨pos, rfl⟩ := hall x hx
    obtain ⟨y, hy, rfl⟩ := many_mem hg
    exact ⟨_, _, rfl⟩
  · intro x hx g hg
    obtain ⟨pos, rfl⟩ := hall x hx
    obtain ⟨y, hy, rfl⟩ := many_mem hg
    rfl
  · intro x hx g hg _
    obtain ⟨pos, rfl⟩ := hall x hx
    obtain ⟨y, hy, rfl⟩ := many_mem hg
    rfl
  · intro x hx x' hx' c c' g g' h hg hg' hh _ _ _ hc hc' hhc k k' hk hk' _
    obtain ⟨pos, rfl⟩ := hall x hx
    obtain ⟨pos', rfl⟩ := hall x' hx'
    obtain ⟨y', hy', rfl⟩ := many_mem hg'
    obtain ⟨y, hy, rfl⟩ := many_mem hg
    obtain ⟨z, hz, rfl⟩ := many_mem hh
    refine ⟨proc y', List.mem_map.2 ⟨y', hy', rfl⟩, by simp [proc], hc', ?_⟩
    have e : k = 0 := by simpa [proc] using hk
    have e' : k' = 0 := by simpa [proc] using hk'
    subst e e'
    rfl

/-- Two pulsars at right angles. -/
def east : Pos := ![1, 0, 0]
/-- Two pulsars at right angles. -/
def north : Pos := ![0, 1, 0]

theorem east_north : east ≠ north := by
  intro h
  have := congrFun h 0
  simp [east, north] at this

/-- Class 0 has the correlations of Hellings and Downs, class 1 those of a clock error. -/
noncomputable def duo (c : Nat) : Pos → Pos → ℝ := if c = 0 then Orf.hdOrf else Orf.monopoleOrf

theorem unit_east : Orf.IsUnit3 east := by simp [Orf.IsUnit3, Orf.dot, Fin.sum_univ_three, east]
theorem unit_north : Orf.IsUnit3 north := by simp [Orf.IsUnit3, Orf.dot, Fin.sum_univ_three, north]

theorem hd_en : |Orf.hdOrf east north| < 1 ∧ Orf.hdOrf north east = Orf.hdOrf east north ∧ Orf.hdOrf east east = 1 ∧ Orf.hdOrf north north = 1 := by
  have h0 : ∀ p : Pos, Orf.hdOrf p p = 1 := fun p => by simp [Orf.hdOrf]
  have h1 := Orf.C71_hd_half unit_east unit_north east_north
  have h2 := (Orf.C71_symmetric north east).1
  have h3 := (Orf.C71_hd_distinct ![east, north] (fun i => by fin_cases i <;> first | exact unit_east | exact unit_north) (by
    intro i j hij
    fin_cases i <;> fin_cases j <;> first | rfl | exact absurd hij east_north | exact absurd hij.symm east_north)).1
  have h4 := h3.dotProduct_mulVec_pos (x := ![1, 1]) (by intro h; simpa using congrFun h 0)
  simp [orfMatrix, dotProduct, mulVec, Fin.sum_univ_two, h0, h2] at h4
  exact ⟨abs_lt.2 ⟨by linarith, by linarith⟩, h2, h0 _, h0 _⟩

theorem mono_en : |Orf.monopoleOrf east north| < 1 + 1e-5 ∧ Orf.monopoleOrf north east = Orf.monopoleOrf east north ∧
    Orf.monopoleOrf east east = 1 + 1e-5 ∧ Orf.monopoleOrf north north = 1 + 1e-5 := by
  have h : ∀ p : Pos, Orf.monopoleOrf p p = 1 + 1e-5 := fun p => by simp [Orf.monopoleOrf]
  have h1 : Orf.monopoleOrf east north = 1 := by simp only [Orf.monopoleOrf, if_neg east_north]
  refine ⟨by rw [h1]; norm_num, (Orf.C71_symmetric _ _).2.2, h _, h _⟩

/-- Own noise of variance 2, a background of variance 3 and a clock error of variance 3, all on one column. -/
noncomputable def three : List (ℝ × Option Nat) := [(2, none), (3, some 0), (3, some 1)]

/-- The same with one common process of variance 3. -/
noncomputable def two : List (ℝ × Option Nat) := [(3, some 5), (2, none)]

theorem three_apt (hash : Col ℝ → H) : Apt hash duo [many east three, many north three] := by
  refine many_apt hash duo three (by simp [three]) ?_ _ _ ?_ ?_
  · intro x hx
    simp only [three, List.mem_cons, List.not_mem_nil, or_false] at hx
    rcases hx with rfl | rfl | rfl <;> norm_num
  · intro c
    rcases c with _ | _ | c <;> simp [three]
  · intro c
    rcases c with _ | _ | c
    · exact ⟨1, fun _ => ⟨hd_en.2.2.1, hd_en.2.2.2, hd_en.1, hd_en.2.1⟩⟩
    · exact ⟨1 + 1e-5, fun _ => ⟨mono_en.2.2.1, mono_en.2.2.2, mono_en.1, mono_en.2.1⟩⟩
    · exact ⟨0, fun h => absurd (by simp [three]) h⟩

/-- The overlap of the sum of the two. -/
noncomputable def both (_ : Nat) (p q : Pos) : ℝ := Orf.hdOrf p q + Orf.monopoleOrf p q

theorem two_apt (hash : Col ℝ → H) : Apt hash both [many east two, many north two] := by
  refine many_apt hash both two (by simp [two]) ?_ _ _ ?_ ?_
  · intro x hx
    simp only [two, List.mem_cons, List.not_mem_nil, or_false] at hx
    rcases hx with rfl | rfl <;> norm_num
  · intro c
    by_cases h : 5 = c <;> simp [two, h]
  · intro c
    have h1 := abs_lt.1 hd_en.1
    have h2 := abs_lt.1 mono_en.1
    refine ⟨1 + (1 + 1e-5), fun _ => ⟨?_, ?_, abs_lt.2 ⟨?_, ?_⟩, ?_⟩⟩
    · simp only [both, hd_en.2.2.1, mono_en.2.2.1]
    · simp only [both, hd_en.2.2.2, mono_en.2.2.2]
    · simp only [both]; linarith
    · simp only [both]; linarith
    · simp only [both, hd_en.2.1, mono_en.2.1]

theorem many_all (p q : Pos) (l : List (ℝ × Option Nat)) : ∀ x ∈ [many p l, many q l], ∃ pos l', x = many pos l' := by
  intro x hx
  simp only [List.mem_cons, List.not_mem_nil, or_false] at hx
  rcases hx with rfl | rfl <;> exact ⟨_, _, rfl⟩

theorem many_procs (p q : Pos) (l : List (ℝ × Option Nat)) :
    procs [many p l, many q l] = l.map (fun x => (0, many p l, proc x)) ++ l.map fun x => (1, many q l, proc x) := by
  simp [procs, rowStart, many, proc, List.filter_map, Function.comp_def]

/-- C107: the fast inverse gives the density of the three processes in the two pulsars. -/
example (hash : Col ℝ → H) (svd : ∀ {n : Nat} (M : Matrix (Fin n) (Fin n) ℝ), Svd M) :
    likelihood hash svd .cliques duo [many east three, many north three] =
      .ok (some (density duo [many east three, many north three] (fun _ => 0) (fun _ => Matrix.diagonal fun _ => 1) (fun _ => 0) + 0)) := by
  have := C107_cliques hash svd duo _ (three_apt hash) (many_same three east north) _ _ _ (many_noise _ (many_all _ _ _))
  simpa [many] using this

/-- C112: a background and a clock error of equal variance are one process with the sum of the correlations. -/
example (hash : Col ℝ → H) (svd : ∀ {n : Nat} (M : Matrix (Fin n) (Fin n) ℝ), Svd M) :
    likelihood hash svd .sparse duo [many east three, many north three] = likelihood hash svd .sparse both [many east two, many north two] := by
  refine C112_sparse hash svd duo both _ _ ?_ (three_apt hash) (two_apt hash) ?_ ?_
  · exact .cons ⟨_, rfl⟩ (.cons ⟨_, rfl⟩ .nil)
  · intro p hp
    obtain ⟨o, h1, h2⟩ := many_noise _ (many_all _ _ _) p hp
    exact ⟨_, _, _, o, h1, h2⟩
  · intro r s hr hs
    have hr : r < 2 := hr
    have hs : s < 2 := hs
    rw [gpCov, gpCov, many_procs, many_procs]
    interval_cases r <;> interval_cases s <;>
      simp [three, two, many, proc, col, kov, duo, both, amat] <;> ring

/-- C112: in any order of the processes and with either inverse. -/
example (hash : Col ℝ → H) (svd : ∀ {n : Nat} (M : Matrix (Fin n) (Fin n) ℝ), Svd M) :
    likelihood hash svd .cliques both [many east two, many north two] =
      likelihood hash svd .partition both [many east two.reverse, many north two.reverse] := by
  have one : ∀ l, l = two ∨ l = two.reverse → OneClass [many east l, many north l] 5 := by
    intro l hl
    refine ⟨fun p hp => (many_same l east north).vec p hp, ?_, ?_⟩
    · intro p hp g hg _
      obtain ⟨pos, l', rfl, rfl⟩ : ∃ pos l', p = many pos l' ∧ l' = l := by
        simp only [List.mem_cons, List.not_mem_nil, or_false] at hp
        rcases hp with rfl | rfl <;> exact ⟨_, _, rfl, rfl⟩
      obtain ⟨y, hy, rfl⟩ := many_mem hg
      rcases hl with rfl | rfl
      · simp only [two, List.mem_cons, List.not_mem_nil, or_false] at hy
        rcases hy with rfl | rfl <;> simp [proc]
      · simp only [two, List.reverse_cons, List.reverse_nil, List.nil_append, List.cons_append, List.mem_cons, List.not_mem_nil, or_false] at hy
        rcases hy with rfl | rfl <;> simp [proc]
    · intro p hp
      obtain ⟨pos, l', rfl, rfl⟩ : ∃ pos l', p = many pos l' ∧ l' = l := by
        simp only [List.mem_cons, List.not_mem_nil, or_false] at hp
        rcases hp with rfl | rfl <;> exact ⟨_, _, rfl, rfl⟩
      rcases hl with rfl | rfl <;> simp [many, two, proc]
  refine C112_methods hash svd _ _ (by simp) (by simp) both both _ _ ?_ (two_apt hash) ?_ 5 5 (one _ (.inl rfl)) (one _ (.inr rfl)) ?_ ?_
  · exact .cons ⟨_, rfl⟩ (.cons ⟨_, rfl⟩ .nil)
  · refine many_apt hash both two.reverse (by simp [two]) ?_ _ _ ?_ ?_
    · intro x hx
      simp only [two, List.mem_reverse, List.mem_cons, List.not_mem_nil, or_false] at hx
      rcases hx with rfl | rfl <;> norm_num
    · intro c
      by_cases h : 5 = c <;> simp [two, h]
    · intro c
      have h1 := abs_lt.1 hd_en.1
      have h2 := abs_lt.1 mono_en.1
      refine ⟨1 + (1 + 1e-5), fun _ => ⟨?_, ?_, abs_lt.2 ⟨?_, ?_⟩, ?_⟩⟩
      · simp only [both, hd_en.2.2.1, mono_en.2.2.1]
      · simp only [both, hd_en.2.2.2, mono_en.2.2.2]
      · simp only [both]; linarith
      · simp only [both]; linarith
      · simp only [both, hd_en.2.1, mono_en.2.1]
  · intro p hp
    obtain ⟨o, h1, h2⟩ := many_noise _ (many_all _ _ _) p hp
    exact ⟨_, _, _, o, h1, h2⟩
  · intro r s hr hs
    have hr : r < 2 := hr
    have hs : s < 2 := hs
    rw [gpCov, gpCov, many_procs, many_procs]
    interval_cases r <;> interval_cases s <;>
      simp [two, many, proc, col, kov, both, amat] <;> ring

end Verif.Joined
