import Verif.Props.EphemGp
import Verif.Props.Ephem

/-!
# Property C114: the physical ephemeris process has the covariance of its parameters
-/

namespace Verif.Background

open Verif Verif.Likelihood Verif.Noise Verif.Combine Verif.Joined Finset
open Verif.Orf (Pos orfMatrix dot)
open Verif.Partition (Svd)
open Verif.Ephem (Sigmas Orbits blocks included truthy framePart unitOrbit mJ mS)

variable {H : Type} [DecidableEq H] {n : Nat}

/-- What a pulsar is at one TOA: the TOA, the planets and the position. -/
abbrev Sight := ℝ × (Fin 9 → Pos) × Pos

/-- The variance of a parameter of width `σ`, which `None` excludes, times `x`. -/
def part (σ : Option ℝ) (x : ℝ) : ℝ := σ.elim 0 fun s => s ^ 2 * x

/-- The change of the delay per unit of the drift rate of the frame, as a quotient of differences. -/
noncomputable def drift (t : Sight) : ℝ := framePart (t.1 / 86400) (t.2.1 2) t.2.2 1e-5 true / 1e-5

/-- The covariance of the delays at two TOAs, of any pulsars, if the masses, the rate and the orbital elements have independent
Gaussian errors of the widths `s`. -/
noncomputable def physCov (s : Sigmas) (files : Orbits (n + 1)) (t t' : Sight) : ℝ :=
  part s.frame_drift_rate (drift t * drift t') +
  part s.d_jupiter_mass (dot (t.2.1 4) t.2.2 * dot (t'.2.1 4) t'.2.2) +
  part s.d_saturn_mass (dot (t.2.1 5) t.2.2 * dot (t'.2.1 5) t'.2.2) +
  part s.d_uranus_mass (dot (t.2.1 6) t.2.2 * dot (t'.2.1 6) t'.2.2) +
  part s.d_neptune_mass (dot (t.2.1 7) t.2.2 * dot (t'.2.1 7) t'.2.2) +
  part s.jup_orb_elements (∑ i, dot (unitOrbit (t.1 / 86400) mJ files.times files.jupiter i) t.2.2 *
    dot (unitOrbit (t'.1 / 86400) mJ files.times files.jupiter i) t'.2.2) +
  part s.sat_orb_elements (∑ i, dot (unitOrbit (t.1 / 86400) mS files.times files.saturn i) t.2.2 *
    dot (unitOrbit (t'.1 / 86400) mS files.times files.saturn i) t'.2.2)

/-! ## Sums over the included columns -/

/-- The sum of products of three lists. -/
def tri : List ℝ → List ℝ → List ℝ → ℝ
  | a :: A, b :: B, c :: C => a * b * c + tri A B C
  | _, _, _ => 0

theorem tri_sum (A B C : List ℝ) (h : A.length = B.length) (h' : C.length = B.length) :
    ∑ p ∈ range B.length, A.getD p 0 * B.getD p 0 * C.getD p 0 = tri A B C := by
  induction B generalizing A C with
  | nil => cases A <;> simp [tri]
  | cons b B ih =>
    cases A with
    | nil => simp at h
    | cons a A =>
      cases C with
      | nil => simp at h'
      | cons c C =>
        rw [List.length_cons, sum_range_succ', tri, ← ih A C (by simpa using h) (by simpa using h'), add_comm]
        simp

theorem tri_append (A B C A' B' C' : List ℝ) (h : A.length = B.length) (h' : C.length = B.length) :
    tri (A ++ A') (B ++ B') (C ++ C') = tri A B C + tri A' B' C' := by
  induction B generalizing A C with
  | nil =>
    obtain rfl := List.length_eq_zero_iff.1 h
    obtain rfl := List.length_eq_zero_iff.1 h'
    simp [tri]
  | cons b B ih =>
    cases A with
    | nil => simp at h
    | cons a A =>
      cases C with
      | nil => simp at h'
      | cons c C =>
        simp only [List.cons_append, tri]
        rw [ih A C (by simpa using h) (by simpa using h')]
        ring

theorem tri_const (x : ℝ) (A C : List ℝ) (h : A.length = C.length) :
    tri A (A.map fun _ => x) C = x * (List.zipWith (· * ·) A C).sum := by
  induction A generalizing C with
  | nil => simp [tri]
  | cons a A ih =>
    cases C with
    | nil => simp at h
    | cons c C =>
      simp only [List.map_cons, tri, List.zipWith_cons_cons, List.sum_cons]
      rw [ih C (by simpa using h)]
      ring

theorem included_cons (b : Option ℝ × List ℝ × List ℝ) (l : List (Option ℝ × List ℝ × List ℝ)) (f : ℝ → List ℝ → List ℝ → List ℝ) :
    included (b :: l) f = ((truthy b.1).elim [] fun x => f x b.2.1 b.2.2) ++ included l f := rfl

theorem part_truthy (σ : Option ℝ) (y : ℝ) : part σ y = (truthy σ).elim 0 fun s => s ^ 2 * y := by
  unfold part truthy
  cases σ with
  | none => rfl
  | some x =>
    by_cases h : x = 0
    · subst h; simp
    · simp [h]

theorem tri_included (l l' : List (Option ℝ × List ℝ × List ℝ)) (h : List.Forall₂ (fun b b' => b.1 = b'.1 ∧ b.2.1.length = b'.2.1.length) l l') :
    tri (included l fun _ v _ => v) ((included l fun x v _ => v.map fun _ => x).map fun s => s ^ 2) (included l' fun _ v _ => v) =
      (List.zipWith (fun b b' => part b.1 (List.zipWith (· * ·) b.2.1 b'.2.1).sum) l l').sum := by
  induction h with
  | nil => rfl
  | @cons b b' l l' hb _ ih =>
    rw [included_cons, included_cons, included_cons, List.map_append, tri_append, ih, List.zipWith_cons_cons, List.sum_cons, part_truthy, ← hb.1]
    · congr 1
      cases truthy b.1 with
      | none => simp [tri]
      | some x =>
        simp only [Option.elim_some, List.map_map]
        exact tri_const (x ^ 2) b.2.1 b'.2.1 hb.2
    · cases truthy b.1 <;> simp
    · rw [← hb.1]
      cases truthy b.1 <;> simp [hb.2]

theorem included_lengths (l : List (Option ℝ × List ℝ × List ℝ)) :
    (included l fun _ v _ => v).length = (included l fun x v _ => v.map fun _ => x).length := by
  induction l with
  | nil => rfl
  | cons b l ih =>
    rw [included_cons, included_cons, List.length_append, List.length_append, ih]
    cases truthy b.1 <;> simp

theorem included_lengths' (l l' : List (Option ℝ × List ℝ × List ℝ)) (h : List.Forall₂ (fun b b' => b.1 = b'.1 ∧ b.2.1.length = b'.2.1.length) l l') :
    (included l fun _ v _ => v).length = (included l' fun _ v _ => v).length ∧
      (included l fun x v _ => v.map fun _ => x) = (included l' fun x v _ => v.map fun _ => x) := by
  induction h with
  | nil => exact ⟨rfl, rfl⟩
  | @cons b b' l l' hb _ ih =>
    rw [included_cons, included_cons, included_cons, included_cons, List.length_append, List.length_append, ih.1, ih.2, ← hb.1]
    cases truthy b.1 with
    | none => exact ⟨rfl, rfl⟩
    | some x => simp [hb.2]

/-! ## The process in a pulsar -/

/-- The blocks of columns at a TOA. -/
noncomputable def blocksAt (s : Sigmas) (files : Orbits (n + 1)) (t : Sight) : List (Option ℝ × List ℝ × List ℝ) :=
  blocks t.1 t.2.1 t.2.2 s files {}

theorem blocksAt_same (s : Sigmas) (files : Orbits (n + 1)) (t t' : Sight) :
    List.Forall₂ (fun b b' => b.1 = b'.1 ∧ b.2.1.length = b'.2.1.length) (blocksAt s files t) (blocksAt s files t') := by
  simp [blocksAt, blocks]

theorem neg_products (f g : Fin 6 → ℝ) : (List.zipWith (· * ·) ((List.finRange 6).map fun i => -f i) ((List.finRange 6).map fun i => -g i)).sum =
    ∑ i, f i * g i := by
  rw [List.zipWith_map, List.zipWith_self, Ephem.sum_finRange]
  simp

theorem blocks_cov (s : Sigmas) (files : Orbits (n + 1)) (t t' : Sight) :
    tri (included (blocksAt s files t) fun _ v _ => v) ((included (blocksAt s files t) fun x v _ => v.map fun _ => x).map fun s => s ^ 2)
      (included (blocksAt s files t') fun _ v _ => v) = physCov s files t t' := by
  rw [tri_included _ _ (blocksAt_same s files t t')]
  simp only [blocksAt, blocks, List.zipWith_cons_cons, List.zipWith_nil_left, List.sum_cons, List.sum_nil, neg_products, neg_mul_neg, add_zero,
    physCov, drift]
  ring

/-- TOA `i` of a pulsar. -/
noncomputable def sight (toas : List ℝ) (sky : List ((Fin 9 → Pos) × Pos)) (i : Nat) : Sight := (toas.getD i 0, sky.getD i (0, 0))

theorem physDesign_ok (toas : List ℝ) (sky : List ((Fin 9 → Pos) × Pos)) (s : Sigmas) (files : Orbits (n + 1)) (h : sky.length = toas.length) (t0 : Sight) :
    ∃ F, physDesign toas sky s files = .ok (F, included (blocksAt s files t0) fun x v _ => v.map fun _ => x) ∧
      ∀ i, i < toas.length → F.getD i [] = included (blocksAt s files (sight toas sky i)) fun _ v _ => v := by
  have hw : (Ephem.columns s 1e-5).map (fun c => c.1) = included (blocksAt s files t0) fun x v _ => v.map fun _ => x := by
    have := Ephem.C95_design t0.1 t0.2.1 t0.2.2 s files {}
    unfold Ephem.designRow at this
    simp only [bind, Except.bind] at this
    split at this
    · cases this
    · simp only [Except.ok.injEq, Prod.mk.injEq] at this
      exact this.2
  have hm : ∀ l : List Sight, l.mapM (fun x => Ephem.designRow x.1 x.2.1 x.2.2 s files) = .ok (l.map fun x =>
      (included (blocksAt s files x) fun _ v _ => v, included (blocksAt s files x) fun x v _ => v.map fun _ => x)) := by
    intro l
    induction l with
    | nil => rfl
    | cons x l ih =>
      rw [List.mapM_cons, Ephem.C95_design x.1 x.2.1 x.2.2 s files {}, ih]
      rfl
  refine ⟨(toas.zip sky).map fun x => included (blocksAt s files x) fun _ v _ => v, ?_, ?_⟩
  · unfold physDesign
    rw [hm, hw]
    simp [bind, Except.bind]
  · intro i hi
    have hi' : i < sky.length := by rw [h]; exact hi
    have hz : i < (toas.zip sky).length := by rw [List.length_zip]; omega
    have e : (toas.zip sky)[i] = sight toas sky i := by
      rw [List.getElem_zip, sight]
      simp [List.getD_eq_getElem?_getD, hi, hi']
    rw [List.getD_eq_getElem?_getD, List.getElem?_map, List.getElem?_eq_getElem hz, e]
    rfl

/-- The widths of the included parameters. -/
noncomputable def widthsOf (s : Sigmas) (files : Orbits (n + 1)) : List ℝ := included (blocksAt s files (0, 0, 0)) fun x v _ => v.map fun _ => x

/-- What the process is in a pulsar. -/
structure Phys (s : Sigmas) (files : Orbits (n + 1)) (sky : List ((Fin 9 → Pos) × Pos)) (m : Member) (g : GSig) : Prop where
  alike : Alike true ((widthsOf s files).map fun s => s ^ 2) g
  entry : ∀ p i, p < (widthsOf s files).length → i < m.toas.length → (g.basisAt.getD p fun _ => 0) i =
    (included (blocksAt s files (sight m.toas sky i)) fun _ v _ => v).getD p 0

theorem physGsig_phys (s : Sigmas) (files : Orbits (n + 1)) (m : Member) (sky : List ((Fin 9 → Pos) × Pos)) (h : sky.length = m.toas.length) :
    ∃ g, physGsig s files m sky = .ok g ∧ Phys s files sky m g := by
  obtain ⟨F, h1, h2⟩ := physDesign_ok m.toas sky s files h (0, 0, 0)
  have e : ∃ g, basisGsig true (fun l => .ok (Ephem.spectrum l)) F (widthsOf s files) = .ok g := ⟨_, rfl⟩
  obtain ⟨g, hg⟩ := e
  refine ⟨g, ?_, ?_⟩
  · unfold physGsig
    rw [h1]
    exact hg
  · obtain ⟨h3, h4⟩ := basisGsig_alike (labels := widthsOf s files) (spectrum := fun l => .ok (Ephem.spectrum l)) (v := (widthsOf s files).map fun s => s ^ 2) rfl (by simp) hg
    refine ⟨h3, fun p i hp hi => ?_⟩
    rw [h4 p i (by simpa using hp), h2 i hi]

theorem phys_cross {s : Sigmas} {files : Orbits (n + 1)} {sky sky' : List ((Fin 9 → Pos) × Pos)} {m m' : Member} {g g' : GSig}
    (h : Phys s files sky m g) (h' : Phys s files sky' m' g') (i j : Nat) (hi : i < m.toas.length) (hj : j < m'.toas.length) :
    crossCov g g' i j = physCov s files (sight m.toas sky i) (sight m'.toas sky' j) := by
  obtain ⟨a1, a2⟩ := included_lengths' _ _ (blocksAt_same s files (0, 0, 0) (sight m.toas sky i))
  obtain ⟨b1, -⟩ := included_lengths' _ _ (blocksAt_same s files (0, 0, 0) (sight m'.toas sky' j))
  have hl := included_lengths (blocksAt s files (0, 0, 0))
  rw [alike_cross h.alike h'.alike, ← blocks_cov, ← tri_sum, ← a2]
  · apply sum_congr rfl
    intro p hp
    have hp : p < (widthsOf s files).length := by simpa using hp
    rw [h.entry p i hp hi, h'.entry p j hp hj]
    rfl
  · rw [List.length_map, ← a2, ← a1, hl]
  · rw [List.length_map, ← a2, ← b1, hl]

/-- The columns of the basis are distinct in this pulsar. -/
def PhysDistinct (s : Sigmas) (files : Orbits (n + 1)) (sky : List ((Fin 9 → Pos) × Pos)) (m : Member) : Prop :=
  ∀ c c', c < (widthsOf s files).length → c' < (widthsOf s files).length → c ≠ c' → ∃ i < m.toas.length,
    (included (blocksAt s files (sight m.toas sky i)) fun _ v _ => v).getD c 0 ≠
      (included (blocksAt s files (sight m.toas sky i)) fun _ v _ => v).getD c' 0

theorem mem_widths {s : Sigmas} {files : Orbits (n + 1)} {x : ℝ} (h : x ∈ widthsOf s files) : x ≠ 0 := by
  simp only [widthsOf, included, List.mem_flatMap] at h
  obtain ⟨b, -, hb⟩ := h
  cases ht : truthy b.1 with
  | none => rw [ht] at hb; simp at hb
  | some y =>
    rw [ht] at hb
    simp only [Option.elim_some, List.mem_map] at hb
    obtain ⟨-, -, rfl⟩ := hb
    exact Ephem.truthy_ne ht

/-- C114: an array with `FourierBasisCommonGP_physicalephem(...)`, in pulsars with their own noise and processes, has as its
likelihood the density of the residuals if the parameters of the ephemeris had independent Gaussian errors of the given widths: the
covariance between two TOAs is that of the delays of these errors, times the overlap of `monopole_orf`. -/
theorem C114_cov (hash : Col ℝ → H) (hh : Function.Injective hash) (svd : ∀ {n : Nat} (M : Matrix (Fin n) (Fin n) ℝ), Svd M)
    (method : Method) (hm : method ≠ .other) (s : Sigmas) (files : Orbits (n + 1)) (rng : Bases.Rng) (sky : Member → List ((Fin 9 → Pos) × Pos))
    (ms : List Member) (hsky : ∀ m ∈ ms, (sky m).length = m.toas.length) (h0 : widthsOf s files ≠ []) (hown : ∀ m ∈ ms, OwnOk m)
    (hvec : ∀ m ∈ ms, ∀ b ∈ m.before ++ m.after, ∃ n v, b.phi = .one n v) (hne : (ms.map Member.pos).Nodup)
    (hd : ∀ m ∈ ms, PhysDistinct s files (sky m) m) :
    ∃ ps, membersOf id (fun m rng => (physGsig s files m (sky m)).map fun g => (g, rng)) ms rng = .ok ps ∧
      ∀ (m : JPsr → Nat) (N : ∀ p : JPsr, Matrix (Fin p.n) (Fin p.n) ℝ) (M : ∀ p : JPsr, Matrix (Fin p.n) (Fin (m p)) ℝ), NoiseIs ps m N M →
        ∃ C, IsCov Orf.monopoleOrf (fun a b i j => physCov s files (ms[a]?.elim (0, 0) fun m => sight m.toas (sky m) i)
            (ms[b]?.elim (0, 0) fun m => sight m.toas (sky m) j)) ms ps N C ∧ likelihood hash svd method (fun _ => Orf.monopoleOrf) ps =
          .ok (some (margLog C (Joint.jm JPsr.n m M ps) (Joint.jv JPsr.n (fun p => p.res - p.delays.reduceOption.sum) ps) +
            (ps.map fun p => p.logprior.sum).sum)) := by
  obtain ⟨ps, hps⟩ := membersOf_ok id (fun m rng => (physGsig s files m (sky m)).map fun g => (g, rng)) ms (fun m hm rng => by
    obtain ⟨g, h, -⟩ := physGsig_phys s files m (sky m) (hsky m hm)
    exact ⟨g, rng, by rw [h]; rfl⟩) rng
  refine ⟨ps, hps, ?_⟩
  have harr : Array' true ((widthsOf s files).map fun s => s ^ 2) (fun m g _ => Phys s files (sky m) m g) ms ps := by
    have := membersOf_forall id _ ms rng ps hps
    rw [List.map_id] at this
    refine this.imp ?_
    rintro m p ⟨x, hxm, g, r, r', hx, h1, h2⟩
    obtain rfl : m = x := hx
    obtain ⟨g', h3, h4⟩ := physGsig_phys s files m (sky m) (hsky m hxm)
    rw [h3] at h1
    cases h1
    exact ⟨_, [], h2, h4.alike, h4⟩
  have hapt : Apt hash (fun _ => Orf.monopoleOrf) ps := by
    apply apt_array hash hh Orf.monopoleOrf _ _ harr hown _ (Orf.C71_monopole _ (pos_inj hne))
    · simpa using h0
    · intro x hx
      obtain ⟨y, hy, rfl⟩ := List.mem_map.1 hx
      have := mem_widths hy
      positivity
    · intro _ p hpp g hg hcls
      obtain ⟨m, hm, g0, φ0, rfl, -, hg0⟩ := Fourier.forall₂_right harr p hpp
      rcases mem_gps hg with rfl | ⟨b, -, rfl⟩
      · rw [List.nodup_iff_injective_get]
        intro c c' hcc
        by_contra hne'
        have hlen : g.basisAt.length = (widthsOf s files).length := by rw [hg0.alike.len, List.length_map]
        have hc1 : c.1 < (widthsOf s files).length := by rw [← hlen]; exact c.2
        have hc2 : c'.1 < (widthsOf s files).length := by rw [← hlen]; exact c'.2
        obtain ⟨i, hi, hrow⟩ := hd m hm c.1 c'.1 hc1 hc2 fun e => hne' (Fin.ext e)
        apply hrow
        rw [← hg0.entry c.1 i hc1 hi, ← hg0.entry c'.1 i hc2 hi]
        have g1 : (g.basisAt.getD c.1 fun _ => 0) = g.basisAt.get c := by
          rw [List.getD_eq_getElem?_getD, List.getElem?_eq_getElem c.2]; rfl
        have g2 : (g.basisAt.getD c'.1 fun _ => 0) = g.basisAt.get c' := by
          rw [List.getD_eq_getElem?_getD, List.getElem?_eq_getElem c'.2]; rfl
        rw [g1, g2, hcc]
      · cases hcls
  have hone := one_class harr hvec
  obtain ⟨φ, h1, h2⟩ := density_array Orf.monopoleOrf harr
  intro m N M hN
  obtain ⟨C, h3, h4⟩ := h2 _ (by
    intro a b m m' g g' hm hm' _ _ hR hR' i j hi hj
    rw [phys_cross hR hR' i j hi hj]
    show _ = (fun a b i j => physCov s files (ms[a]?.elim (0, 0) fun m => sight m.toas (sky m) i) (ms[b]?.elim (0, 0) fun m => sight m.toas (sky m) j)) a b i j
    simp only [hm, hm', Option.elim_some]) m N M
  exact ⟨C, h3, by rw [C107_methods hash svd method hm _ ps hapt 0 hone m N M hN, h4]⟩

/-! ## An example -/

/-- Only the mass of Jupiter. -/
noncomputable def exSig1 : Sigmas where
  frame_drift_rate := none
  d_jupiter_mass := some 1
  d_saturn_mass := none
  d_uranus_mass := none
  d_neptune_mass := none
  jup_orb_elements := none
  sat_orb_elements := none

theorem ex_widths (files : Orbits (n + 1)) : widthsOf exSig1 files = [1] := by
  simp [widthsOf, blocksAt, blocks, included, truthy, exSig1]

/-- Two pulsars with an error of the mass of Jupiter: the covariance is the product of its projections. -/
example (hash : Col ℝ → H) (hh : Function.Injective hash) (svd : ∀ {n : Nat} (M : Matrix (Fin n) (Fin n) ℝ), Svd M) (files : Orbits 1)
    (rng : Bases.Rng) (jup : Pos) :
    (∀ t t' : ℝ, ∀ p p' : Pos, physCov exSig1 files (t, fun _ => jup, p) (t', fun _ => jup, p') = dot jup p * dot jup p') ∧
    ∃ ps, membersOf id (fun m rng => (physGsig exSig1 files m [(fun _ => jup, m.pos), (fun _ => jup, m.pos)]).map fun g => (g, rng)) [exC, exD] rng = .ok ps ∧
      ∃ C, IsCov Orf.monopoleOrf (fun a b i j => physCov exSig1 files
          ([exC, exD][a]?.elim (0, 0) fun m => sight m.toas [(fun _ => jup, m.pos), (fun _ => jup, m.pos)] i)
          ([exC, exD][b]?.elim (0, 0) fun m => sight m.toas [(fun _ => jup, m.pos), (fun _ => jup, m.pos)] j)) [exC, exD] ps (fun _ => Matrix.diagonal fun _ => 1) C ∧
        likelihood hash svd .sparse (fun _ => Orf.monopoleOrf) ps =
          .ok (some (margLog C (Joint.jm JPsr.n (fun _ => 0) (fun _ => 0) ps) (Joint.jv JPsr.n (fun p => p.res - p.delays.reduceOption.sum) ps) +
            (ps.map fun p => p.logprior.sum).sum)) := by
  have mem : ∀ m ∈ [exC, exD], m = exC ∨ m = exD := by
    intro m hm
    simpa using hm
  have sig : ∀ m ∈ [exC, exD], ∀ b ∈ m.before ++ m.after, b = exSig := by
    intro m hm b hb
    rcases mem m hm with rfl | rfl
    · simp [exC] at hb
    · simpa [exD] using hb
  refine ⟨by intro t t' p p'; simp [physCov, part, exSig1], ?_⟩
  obtain ⟨ps, h1, h2⟩ := C114_cov hash hh svd .sparse (by simp) exSig1 files rng (fun m => [(fun _ => jup, m.pos), (fun _ => jup, m.pos)]) [exC, exD]
    (fun m hm => by rcases mem m hm with rfl | rfl <;> rfl) (by rw [ex_widths]; simp) (fun m hm b hb => by rw [sig m hm b hb]; exact exSig_ok)
    (fun m hm b hb => by rw [sig m hm b hb]; exact ⟨_, _, rfl⟩) (by
      simp only [List.map_cons, List.map_nil, List.nodup_cons, List.mem_singleton, List.not_mem_nil, not_false_eq_true, List.nodup_nil, and_true]
      intro h
      have : (2 / 7 : ℝ) = 3 / 7 := congrFun h 0
      norm_num at this) (by
      intro m hm c c' hc hc' hne
      rw [ex_widths, List.length_singleton] at hc hc'
      omega)
  refine ⟨ps, h1, h2 (fun _ => 0) (fun _ => Matrix.diagonal fun _ => 1) (fun _ => 0) ?_⟩
  intro p hp
  have hall := membersOf_forall id _ _ _ _ h1
  rw [List.map_id] at hall
  obtain ⟨m, hm, -, -, g, r, r', -, -, rfl⟩ := Fourier.forall₂_right hall p hp
  have key : ∀ n : Nat, ∃ o, getNdiag ([some (.base (.arr fun _ : Fin n => (1 : ℝ)))] : List (Option (Nmat n ℝ))).reduceOption = .ok o ∧
      Whole o (Matrix.diagonal fun _ => 1) (0 : Matrix (Fin n) (Fin 0) ℝ) fun _ => True := fun n =>
    ⟨.base (.arr fun _ => 1), rfl, whole_base (arr_exact (fun _ : Fin n => (1 : ℝ)) fun _ => one_pos) 0⟩
  rcases mem m hm with rfl | rfl
  · exact key 2
  · exact key 2

end Verif.Background
