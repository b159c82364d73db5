import Verif.Model.Commons
import Verif.Props.Gwb
import Verif.Props.SameCov

/-!
# Property C113: the ephemeris process is a background with dipolar overlaps
-/

namespace Verif.Background

open Verif Verif.Likelihood Verif.Noise Verif.Combine Verif.Joined Finset
open Verif.Orf (Pos orfMatrix)
open Verif.PhiInv (toMatrix)
open Verif.Kernel (Arr)
open Verif.Partition (Svd)

variable {H : Type} [DecidableEq H]

/-! ## Common processes with a given basis -/

/-- The entries of a process with basis matrix `F` and variances `v`. -/
theorem basisGsig_alike {combine : Bool} {spectrum : List ℝ → Except PyErr (List ℝ)} {F : List (List ℝ)} {labels v : List ℝ} {g : GSig}
    (hS : spectrum labels = .ok v) (hl : v.length = labels.length) (h : basisGsig combine spectrum F labels = .ok g) :
    Alike combine v g ∧ ∀ p i, p < v.length → (g.basisAt.getD p fun _ => 0) i = (F.getD i []).getD p 0 := by
  unfold basisGsig at h
  rw [hS] at h
  simp only [Except.ok.injEq] at h
  subst h
  refine ⟨⟨rfl, rfl, rfl, ?_, rfl, rfl⟩, ?_⟩
  · simp [Fourier.columns_length, hl]
  · intro p i hp
    rw [hl] at hp
    have hp' : p < (Fourier.columns labels.length F).length := by rw [Fourier.columns_length]; exact hp
    have e : (((Fourier.columns labels.length F).map fun (c : List ℝ) (a : Nat) => c.getD a 0).getD p fun _ => 0) i =
        ((Fourier.columns labels.length F).getD p []).getD i 0 := by
      simp only [List.getD_eq_getElem?_getD, List.getElem?_map, List.getElem?_eq_getElem hp', Option.map_some, Option.getD_some]
    exact e.trans (Fourier.columns_get labels.length F p i hp)

/-- The covariance between two rows of processes with the same variances. -/
theorem alike_cross {c : Bool} {v : List ℝ} {g g' : GSig} (h : Alike c v g) (h' : Alike c v g') (i j : Nat) :
    crossCov g g' i j = ∑ p ∈ range v.length, (g.basisAt.getD p fun _ => 0) i * v.getD p 0 * (g'.basisAt.getD p fun _ => 0) j := by
  rw [crossCov, h.len, h'.len]
  apply sum_congr rfl
  intro p hp
  rw [sum_eq_single p]
  · rw [h.prior, Fourier.amat_one, if_pos rfl]
  · intro q _ hqp
    rw [h.prior, Fourier.amat_one, if_neg fun e => hqp e.symm]
    ring
  · intro h0
    exact absurd hp h0

theorem membersOf_forall {α : Type} (mem : α → Member) (mk : α → Bases.Rng → Except PyErr (GSig × Bases.Rng)) (l : List α) :
    ∀ (rng : Bases.Rng) (ps : List JPsr), membersOf mem mk l rng = .ok ps →
      List.Forall₂ (fun m p => ∃ x ∈ l, ∃ g r r', m = mem x ∧ mk x r = .ok (g, r') ∧ p = m.psr g) (l.map mem) ps := by
  induction l with
  | nil => intro rng ps h; cases h; exact .nil
  | cons x t ih =>
    intro rng ps h
    rw [membersOf] at h
    split at h
    · cases h
    · rename_i g rng' h1
      split at h
      · cases h
      · rename_i l h2
        cases h
        refine .cons ⟨x, List.mem_cons_self, g, rng, rng', rfl, h1, rfl⟩ ((ih _ _ h2).imp ?_)
        rintro m p ⟨y, hy, r⟩
        exact ⟨y, List.mem_cons_of_mem _ hy, r⟩

theorem membersOf_ok {α : Type} (mem : α → Member) (mk : α → Bases.Rng → Except PyErr (GSig × Bases.Rng)) (l : List α)
    (h : ∀ x ∈ l, ∀ rng, ∃ g rng', mk x rng = .ok (g, rng')) : ∀ rng, ∃ ps, membersOf mem mk l rng = .ok ps := by
  induction l with
  | nil => intro rng; exact ⟨[], rfl⟩
  | cons x t ih =>
    intro rng
    obtain ⟨g, rng', hg⟩ := h x List.mem_cons_self rng
    obtain ⟨l, hl⟩ := ih (fun y hy => h y (List.mem_cons_of_mem _ hy)) rng'
    refine ⟨(mem x).psr g :: l, ?_⟩
    rw [membersOf, hg]
    simp only [hl]

/-! ## The ephemeris basis -/

theorem rep_rep {α : Type} (n m : Nat) (l : List α) : Bases.rep n (Bases.rep m l) = Bases.rep (m * n) l := by
  induction l with
  | nil => rfl
  | cons x t ih =>
    have h : ∀ k, (List.replicate k x).flatMap (fun x => List.replicate n x) = List.replicate (k * n) x := by
      intro k
      induction k with
      | zero => simp
      | succ k ih => rw [List.replicate_succ, List.flatMap_cons, ih, ← List.replicate_add, Nat.succ_mul, Nat.add_comm]
    unfold Bases.rep at ih ⊢
    rw [List.flatMap_cons, List.flatMap_append, ih, List.flatMap_cons, h]

theorem rep_getD (n : Nat) (l : List ℝ) (q c : Nat) (hc : c < n) : (Bases.rep n l).getD (n * q + c) 0 = l.getD q 0 := by
  rw [List.getD_eq_getElem?_getD, Bases.rep_get n l q c hc, List.getD_eq_getElem?_getD]

theorem ephemRow_getD (x y z : ℝ) (r : List ℝ) (q : Nat) :
    (Bases.ephemRow (x, y, z) r).getD (3 * q) 0 = r.getD q 0 * x ∧ (Bases.ephemRow (x, y, z) r).getD (3 * q + 1) 0 = r.getD q 0 * y ∧
      (Bases.ephemRow (x, y, z) r).getD (3 * q + 2) 0 = r.getD q 0 * z := by
  induction r generalizing q with
  | nil => simp [Bases.ephemRow]
  | cons s t ih =>
    have e : Bases.ephemRow (x, y, z) (s :: t) = s * x :: s * y :: s * z :: Bases.ephemRow (x, y, z) t := by simp [Bases.ephemRow]
    rw [e]
    cases q with
    | zero => simp
    | succ q =>
      have := ih q
      rw [show 3 * (q + 1) = 3 * q + 1 + 1 + 1 by ring]
      simpa using this

theorem sum_three (n : Nat) (f : Nat → ℝ) : ∑ p ∈ range (3 * n), f p = ∑ q ∈ range n, (f (3 * q) + f (3 * q + 1) + f (3 * q + 2)) := by
  induction n with
  | zero => simp
  | succ n ih =>
    rw [show 3 * (n + 1) = 3 * n + 1 + 1 + 1 by ring, sum_range_succ, sum_range_succ, sum_range_succ, ih, sum_range_succ]
    ring

/-- What the ephemeris process with frequencies `f` and variances `w` is in a pulsar. -/
structure Eph (f w : List ℝ) (m : Member) (g : GSig) : Prop where
  alike : Alike true (Bases.rep 6 w) g
  entry : ∀ p i, p < 6 * f.length → i < m.toas.length → (g.basisAt.getD p fun _ => 0) i =
    (Bases.ephemRow (m.pos 0, m.pos 1, m.pos 2) (Bases.row (m.toas.getD i 0) f (List.replicate f.length 0))).getD p 0

theorem ephem_red (seeded : Int → Bases.Rng) (n : Nat) (T : ℝ) (toas : List ℝ) (rng : Bases.Rng) :
    Bases.red seeded rng toas { nmodes := n, Tspan := some T } = .ok ((toas.map fun t => Bases.row t (Bases.harmonics n T)
      (List.replicate (Bases.harmonics n T).length 0), Bases.rep 2 (Bases.harmonics n T)), rng) := rfl

theorem ephemGsig_eph (seeded : Int → Bases.Rng) (spectrum : List ℝ → Except PyErr (List ℝ)) (n : Nat) (T : ℝ) (w : List ℝ)
    (hS : spectrum (Bases.rep 6 (Bases.harmonics n T)) = .ok (Bases.rep 6 w)) (hwl : w.length = (Bases.harmonics n T).length) (m : Member)
    (rng : Bases.Rng) : ∃ g, ephemGsig seeded spectrum n (some T) m rng = .ok (g, rng) ∧ Eph (Bases.harmonics n T) w m g := by
  have e : ∃ g, basisGsig true spectrum ((m.toas.map fun t => Bases.row t (Bases.harmonics n T)
      (List.replicate (Bases.harmonics n T).length 0)).map (Bases.ephemRow (m.pos 0, m.pos 1, m.pos 2))) (Bases.rep 6 (Bases.harmonics n T)) = .ok g := by
    unfold basisGsig
    rw [hS]
    exact ⟨_, rfl⟩
  obtain ⟨g, hg⟩ := e
  refine ⟨g, ?_, ?_⟩
  · unfold ephemGsig Bases.ephem
    rw [ephem_red]
    simp only [bind, Except.bind, rep_rep, hg]
  · obtain ⟨h1, h2⟩ := basisGsig_alike hS (by rw [Bases.rep_length, Bases.rep_length, hwl]) hg
    refine ⟨h1, fun p i hp hi => ?_⟩
    rw [h2 p i (by rw [Bases.rep_length, hwl]; exact hp)]
    congr 1
    simp only [List.map_map, List.getD_eq_getElem?_getD, List.getElem?_map, List.getElem?_eq_getElem hi, Option.map_some, Option.getD_some,
      Function.comp_apply]

theorem eph_cross {f w : List ℝ} {m m' : Member} {g g' : GSig} (h : Eph f w m g) (h' : Eph f w m' g') (hwl : w.length = f.length) (i j : Nat)
    (hi : i < m.toas.length) (hj : j < m'.toas.length) :
    crossCov g g' i j = Orf.dot m.pos m'.pos * Fourier.wave w f (m.toas.getD i 0) (m'.toas.getD j 0) := by
  rw [alike_cross h.alike h'.alike, Bases.rep_length, hwl, show 6 * f.length = 3 * (2 * f.length) by ring, sum_three]
  rw [← shifted_zero w f (List.replicate f.length 0) (List.replicate f.length 0) (by simp [List.getD_eq_getElem?_getD, List.getElem?_replicate]; intro j; split <;> rfl) (by simp [List.getD_eq_getElem?_getD, List.getElem?_replicate]; intro j; split <;> rfl),
    ← Fourier.rows_sum _ _ f _ _ w (by simp) (by simp), mul_sum]
  apply sum_congr rfl
  intro q hq
  have hq := mem_range.1 hq
  have hw : ∀ c, c < 3 → (Bases.rep 6 w).getD (3 * q + c) 0 = (Bases.rep 2 w).getD q 0 := by
    intro c hc
    rw [show (6 : Nat) = 2 * 3 from rfl, ← rep_rep 3 2 w, rep_getD 3 _ q c hc]
  obtain ⟨a1, a2, a3⟩ := ephemRow_getD (m.pos 0) (m.pos 1) (m.pos 2) (Bases.row (m.toas.getD i 0) f (List.replicate f.length 0)) q
  obtain ⟨b1, b2, b3⟩ := ephemRow_getD (m'.pos 0) (m'.pos 1) (m'.pos 2) (Bases.row (m'.toas.getD j 0) f (List.replicate f.length 0)) q
  have hw0 := hw 0 (by omega)
  rw [Nat.add_zero] at hw0
  rw [h.entry _ i (by omega) hi, h.entry _ i (by omega) hi, h.entry _ i (by omega) hi, h'.entry _ j (by omega) hj, h'.entry _ j (by omega) hj,
    h'.entry _ j (by omega) hj, hw0, hw 1 (by omega), hw 2 (by omega), a1, a2, a3, b1, b2, b3, Orf.dot, Fin.sum_univ_three]
  ring

/-! ## The array -/

theorem powerlaw_rep (A γ : ℝ) (c n : Nat) (T : ℝ) (hc : 0 < c) (hT : 0 < T) :
    Spectra.powerlaw (Bases.rep c (Bases.harmonics n T)) A γ c = .ok (Bases.rep c ((List.range n).map (Fourier.plaw A γ T))) := by
  obtain ⟨w, h1, h2, -, h4⟩ := Spectra.C66_powerlaw A γ c hc _ (Fourier.harmonics_ascending n T hT)
  have h1 : Spectra.powerlaw (Bases.rep c (Bases.harmonics n T)) A γ c = .ok (Bases.rep c w) := h1
  rw [h1]
  congr 2
  have hl : w.length = n := by rw [h2]; simp [Bases.harmonics]
  apply List.ext_getElem?
  intro j
  by_cases hj : j < n
  · have e := h4 j (((j : ℝ) + 1) / T) (by simp [Bases.harmonics, hj])
    rw [e, Fourier.bin_harmonics n T j hj]
    simp [hj, Fourier.plaw]
  · rw [List.getElem?_eq_none (by omega), List.getElem?_eq_none (by simp; omega)]

/-- The columns of the ephemeris basis are distinct in this pulsar. -/
def EphDistinct (nmodes : Nat) (T : ℝ) (m : Member) : Prop :=
  ∀ c c', c < 6 * nmodes → c' < 6 * nmodes → c ≠ c' → ∃ t ∈ m.toas,
    (Bases.ephemRow (m.pos 0, m.pos 1, m.pos 2) (Bases.row t (Bases.harmonics nmodes T) (List.replicate nmodes 0))).getD c 0 ≠
      (Bases.ephemRow (m.pos 0, m.pos 1, m.pos 2) (Bases.row t (Bases.harmonics nmodes T) (List.replicate nmodes 0))).getD c' 0

theorem mem_rep' {n : Nat} {v : List ℝ} {x : ℝ} (h : x ∈ Bases.rep n v) : x ∈ v := by
  simp only [Bases.rep, List.mem_flatMap, List.mem_replicate] at h
  obtain ⟨y, hy, -, rfl⟩ := h
  exact hy

theorem ephem_apt (hash : Col ℝ → H) (hh : Function.Injective hash) (orf : Pos → Pos → ℝ) (seeded : Int → Bases.Rng) (rng : Bases.Rng) (n : Nat)
    (hn : n ≠ 0) (A γ T : ℝ) (hT : 0 < T) (ms : List Member) (hown : ∀ m ∈ ms, OwnOk m)
    (hpos : (orfMatrix orf fun u : Fin ms.length => (ms[u]).pos).PosDef) (hd : ∀ m ∈ ms, EphDistinct n T m) :
    ∃ ps, membersOf id (ephemGsig seeded (fun f => Spectra.powerlaw f A γ 6) n (some T)) ms rng = .ok ps ∧ Apt hash (fun _ => orf) ps ∧
      Array' true (Bases.rep 6 ((List.range n).map (Fourier.plaw A γ T))) (fun m g _ => Eph (Bases.harmonics n T)
        ((List.range n).map (Fourier.plaw A γ T)) m g) ms ps := by
  have hfl : (Bases.harmonics n T).length = n := by simp [Bases.harmonics]
  have hwl : ((List.range n).map (Fourier.plaw A γ T)).length = (Bases.harmonics n T).length := by simp [hfl]
  have hmk := ephemGsig_eph seeded (fun f => Spectra.powerlaw f A γ 6) n T _ (powerlaw_rep A γ 6 n T (by norm_num) hT) hwl
  obtain ⟨ps, hps⟩ := membersOf_ok id (ephemGsig seeded (fun f => Spectra.powerlaw f A γ 6) n (some T)) ms (fun m _ rng => by
    obtain ⟨g, h, -⟩ := hmk m rng
    exact ⟨g, rng, h⟩) rng
  have harr : Array' true (Bases.rep 6 ((List.range n).map (Fourier.plaw A γ T))) (fun m g _ => Eph (Bases.harmonics n T)
        ((List.range n).map (Fourier.plaw A γ T)) m g) ms ps := by
    have := membersOf_forall id _ ms rng ps hps
    rw [List.map_id] at this
    refine this.imp ?_
    rintro m p ⟨x, -, g, r, r', hx, h1, h2⟩
    obtain rfl : m = x := hx
    obtain ⟨g', h3, h4⟩ := hmk m r
    rw [h3] at h1
    cases h1
    exact ⟨g, [], h2, h4.alike, h4⟩
  refine ⟨ps, hps, ?_, harr⟩
  apply apt_array hash hh orf _ _ harr hown _ hpos
  · intro e
    have := congrArg List.length e
    rw [Bases.rep_length, hwl, hfl, List.length_nil] at this
    omega
  · intro x hx
    obtain ⟨j, -, rfl⟩ := List.mem_map.1 (mem_rep' hx)
    exact Fourier.plaw_pos A γ T hT j
  · intro _ p hpp g hg hcls
    obtain ⟨m, hm, g0, φ0, rfl, -, hg0⟩ := Fourier.forall₂_right harr p hpp
    rcases mem_gps hg with rfl | ⟨b, -, rfl⟩
    · rw [List.nodup_iff_injective_get]
      intro c c' hcc
      by_contra hne'
      have hlen : g.basisAt.length = 6 * n := by rw [hg0.alike.len, Bases.rep_length, hwl, hfl]
      have hc1 : c.1 < 6 * n := by rw [← hlen]; exact c.2
      have hc2 : c'.1 < 6 * n := by rw [← hlen]; exact c'.2
      obtain ⟨t, ht, hrow⟩ := hd m hm c.1 c'.1 hc1 hc2 fun e => hne' (Fin.ext e)
      obtain ⟨i, hi, rfl⟩ := List.getElem_of_mem ht
      have e1 := hg0.entry c.1 i (by rw [hfl]; exact hc1) hi
      have e2 := hg0.entry c'.1 i (by rw [hfl]; exact hc2) hi
      have ei : m.toas.getD i 0 = m.toas[i] := by rw [List.getD_eq_getElem?_getD, List.getElem?_eq_getElem hi]; rfl
      rw [hfl, ei] at e1 e2
      apply hrow
      rw [← e1, ← e2]
      have g1 : (g.basisAt.getD c.1 fun _ => 0) = g.basisAt.get c := by
        rw [List.getD_eq_getElem?_getD, List.getElem?_eq_getElem c.2]; rfl
      have g2 : (g.basisAt.getD c'.1 fun _ => 0) = g.basisAt.get c' := by
        rw [List.getD_eq_getElem?_getD, List.getElem?_eq_getElem c'.2]; rfl
      rw [g1, g2, hcc]
    · cases hcls

/-- The noise of a pulsar of the array can be solved with. -/
def Member.Solvable (m : Member) : Prop :=
  ∃ (k : Nat) (N : Matrix (Fin m.toas.length) (Fin m.toas.length) ℝ) (M : Matrix (Fin m.toas.length) (Fin k) ℝ) (o : Nmat m.toas.length ℝ),
    getNdiag m.noise.reduceOption = .ok o ∧ Whole o N M fun _ => True

theorem array_get {c : Bool} {v : List ℝ} {R : Member → GSig → List ℝ → Prop} {ms : List Member} {ps : List JPsr} (h : Array' c v R ms ps) (a : Nat)
    (p : JPsr) (hp : ps[a]? = some p) : ∃ m g φ, ms[a]? = some m ∧ p = m.psr g ∧ Alike c v g ∧ R m g φ := by
  obtain ⟨ha, rfl⟩ := List.getElem?_eq_some_iff.1 hp
  have ha' : a < ms.length := by rw [h.length_eq]; exact ha
  obtain ⟨g, φ, h1⟩ := h.get ha' ha
  exact ⟨ms[a], g, φ, List.getElem?_eq_getElem ha', h1⟩

theorem array_get' {c : Bool} {v : List ℝ} {R : Member → GSig → List ℝ → Prop} {ms : List Member} {ps : List JPsr} (h : Array' c v R ms ps) (a : Nat)
    (m : Member) (hm : ms[a]? = some m) : ∃ g φ, ps[a]? = some (m.psr g) ∧ Alike c v g ∧ R m g φ := by
  obtain ⟨ha, rfl⟩ := List.getElem?_eq_some_iff.1 hm
  have ha' : a < ps.length := by rw [← h.length_eq]; exact ha
  obtain ⟨g, φ, h1, h2⟩ := h.get ha ha'
  have h1 : ps[a] = (ms[a]).psr g := h1
  exact ⟨g, φ, by rw [List.getElem?_eq_getElem ha', h1], h2⟩

/-- Two arrays of the same pulsars with common processes of the same covariance. -/
theorem same_arrays {c c' : Bool} {v v' : List ℝ} {R R' : Member → GSig → List ℝ → Prop} {ms : List Member} {ps qs : List JPsr}
    (h : Array' c v R ms ps) (h' : Array' c' v' R' ms qs) (orf orf' : Pos → Pos → ℝ)
    (hx : ∀ (a b : Nat) (m m' : Member) g1 g2 g1' g2' φ1 φ2 φ1' φ2', ms[a]? = some m → ms[b]? = some m' → Alike c v g1 → Alike c v g2 →
      Alike c' v' g1' → Alike c' v' g2' → R m g1 φ1 →
      R m' g2 φ2 → R' m g1' φ1' → R' m' g2' φ2' → ∀ i j, i < m.toas.length → j < m'.toas.length →
        orf m.pos m'.pos * crossCov g1 g2 i j = orf' m.pos m'.pos * crossCov g1' g2' i j) :
    List.Forall₂ SameData ps qs ∧ ∀ r s, r < (ps.map JPsr.n).sum → s < (ps.map JPsr.n).sum → gpCov (fun _ => orf) ps r s = gpCov (fun _ => orf') qs r s := by
  have hsame : List.Forall₂ SameData ps qs := by
    rw [List.forall₂_iff_get]
    refine ⟨by rw [← h.length_eq, ← h'.length_eq], fun i hi hi' => ?_⟩
    obtain ⟨m, g, φ, h1, h2, -⟩ := array_get h i _ (List.getElem?_eq_getElem hi)
    obtain ⟨g', φ', h3, -⟩ := array_get' h' i m h1
    rw [List.getElem?_eq_getElem hi'] at h3
    have h3 := Option.some.inj h3
    refine ⟨(m.psr g').gps, ?_⟩
    show qs[i] = _
    have h2 : ps.get ⟨i, hi⟩ = m.psr g := h2
    rw [h3, h2]
    rfl
  refine ⟨hsame, fun r s hr hs => ?_⟩
  obtain ⟨a, p, i, ha, hi, rfl⟩ := row_of ps r hr
  obtain ⟨b, q, j, hb, hj, rfl⟩ := row_of ps s hs
  obtain ⟨m, g1, φ1, m1, rfl, k1, r1⟩ := array_get h a p ha
  obtain ⟨m', g2, φ2, m2, rfl, k2, r2⟩ := array_get h b q hb
  obtain ⟨g1', φ1', ha', k1', r1'⟩ := array_get' h' a m m1
  obtain ⟨g2', φ2', hb', k2', r2'⟩ := array_get' h' b m' m2
  rw [cov_rows orf a b m m' g1 g2 ha hb k1 k2 i j hi hj, ← same_rowStart hsame, ← same_rowStart hsame,
    cov_rows orf' a b m m' g1' g2' ha' hb' k1' k2' i j hi hj, hx a b m m' g1 g2 g1' g2' φ1 φ2 φ1' φ2' m1 m2 k1 k2 k1' k2' r1 r2 r1' r2' i j hi hj]

theorem monopole_dipole {p q : Pos} (hp : Orf.IsUnit3 p) : Orf.monopoleOrf p q * Orf.dot p q = Orf.dipoleOrf p q := by
  unfold Orf.monopoleOrf Orf.dipoleOrf
  by_cases h : p = q
  · subst h
    have : Orf.dot p p = 1 := hp
    rw [if_pos rfl, if_pos rfl, this, mul_one]
  · rw [if_neg h, if_neg h, one_mul]

/-- C113: `FourierBasisCommonGP_ephem` with a power law of six components has the same likelihood as `FourierBasisCommonGP` with the
power law, the same frequencies and `dipole_orf`, whatever the noise and the other processes of the pulsars and the methods. -/
theorem C113_dipole (hash : Col ℝ → H) (hh : Function.Injective hash) (svd : ∀ {n : Nat} (M : Matrix (Fin n) (Fin n) ℝ), Svd M)
    (method method' : Method) (hm : method ≠ .other) (hm' : method' ≠ .other) (seeded : Int → Bases.Rng) (rng rng' : Bases.Rng)
    (args : Bases.Args) (ha : Bases.Plain args) (hp : args.pshift = false) (hs : args.pseed = none) (hn : args.nmodes ≠ 0) (combine : Bool)
    (A γ T : ℝ) (hT : 0 < T)
    (ms : List Member) (hown : ∀ m ∈ ms, OwnOk m) (hvec : ∀ m ∈ ms, ∀ b ∈ m.before ++ m.after, ∃ n v, b.phi = .one n v)
    (hu : ∀ m ∈ ms, Orf.IsUnit3 m.pos) (hne : (ms.map Member.pos).Nodup) (hN : ∀ m ∈ ms, m.Solvable)
    (he : ∀ m ∈ ms, EphDistinct args.nmodes T m) (hd : combine = true → ∀ m ∈ ms, DistinctAt args.nmodes T m.toas) :
    ∃ ps qs, membersOf id (ephemGsig seeded (fun f => Spectra.powerlaw f A γ 6) args.nmodes (some T)) ms rng = .ok ps ∧
      members seeded ⟨args, combine, fun f => Spectra.powerlaw f A γ 2⟩ T ms rng' = .ok qs ∧
      likelihood hash svd method (fun _ => Orf.monopoleOrf) ps = likelihood hash svd method' (fun _ => Orf.dipoleOrf) qs := by
  obtain ⟨ps, h1, h2, h3⟩ := ephem_apt hash hh Orf.monopoleOrf seeded rng args.nmodes hn A γ T hT ms hown (Orf.C71_monopole _ (pos_inj hne)) he
  obtain ⟨qs, h4, h5, h6⟩ := powerlaw_apt hash hh Orf.dipoleOrf seeded rng' args ha hp hs hn combine A γ T hT ms hown
    (Orf.C71_dipole _ (fun i => le_of_eq (hu _ (List.getElem_mem _))) (pos_inj hne)) hd
  have hwl : ((List.range args.nmodes).map (Fourier.plaw A γ T)).length = (Bases.harmonics args.nmodes T).length := by simp [Bases.harmonics]
  obtain ⟨h7, h8⟩ := same_arrays h3 h6 Orf.monopoleOrf Orf.dipoleOrf (by
    intro a b m m' g1 g2 g1' g2' φ1 φ2 φ1' φ2' m1 m2 _ _ _ _ r1 r2 r1' r2' i j hi hj
    rw [eph_cross r1 r2 hwl i j hi hj, gw_cross r1' r2' hwl i j hi hj, shifted_zero _ _ _ _ (r1'.zero hp hs) (r2'.zero hp hs),
      ← mul_assoc, monopole_dipole (hu m (List.mem_of_getElem? m1))])
  refine ⟨ps, qs, h1, h4, C112_methods hash svd method method' hm hm' _ _ ps qs h7 h2 h5 0 0 (one_class h3 hvec) (one_class h6 hvec) ?_ h8⟩
  intro p hpp
  obtain ⟨m, hmm, g, φ, rfl, -⟩ := Fourier.forall₂_right h3 p hpp
  exact hN m hmm

/-! ## The power law has to have six components -/

theorem every_rep (f : List ℝ) : Spectra.every 2 0 (Bases.rep 6 f) = Bases.rep 3 f := by
  induction f with
  | nil => rfl
  | cons x t ih =>
    rw [Bases.rep_cons, Bases.rep_cons]
    simp [List.replicate_succ, Spectra.every, ih]

/-- C113 is false of a power law with the default number of components: the widths of the frequency bins, and with them the
variances, of four of the six columns of each mode are zero, whatever the amplitude, so that the prior is not positive definite. -/
theorem C113_components (A γ : ℝ) (f : List ℝ) :
    ∃ v, Spectra.powerlaw (Bases.rep 6 f) A γ 2 = .ok v ∧ v.length = 6 * f.length ∧
      ∀ j c, j < f.length → 2 ≤ c → c < 6 → v.getD (6 * j + c) 0 = 0 := by
  have hl : (Spectra.steps 0 (Bases.rep 3 f)).length = 3 * f.length := by rw [Spectra.steps_length, Bases.rep_length]
  unfold Spectra.powerlaw Spectra.widths
  simp only [every_rep, show ¬ (2 : Nat) = 0 from by norm_num, if_false, bind, Except.bind, Spectra.bc]
  rw [if_pos (by rw [Bases.rep_length, Bases.rep_length, hl]; ring)]
  refine ⟨_, rfl, ?_, ?_⟩
  · rw [List.length_zipWith, Bases.rep_length, Bases.rep_length, hl]; omega
  · intro j c hj h2 h6
    rw [List.getD_eq_getElem?_getD, List.getElem?_zipWith]
    have e : (Bases.rep 2 (Spectra.steps 0 (Bases.rep 3 f)))[6 * j + c]? = some 0 := by
      obtain ⟨d, b, hb, hd, rfl⟩ : ∃ d b, b < 2 ∧ (d = 1 ∨ d = 2) ∧ c = 2 * d + b := ⟨c / 2, c % 2, by omega, by omega, by omega⟩
      rw [show 6 * j + (2 * d + b) = 2 * (3 * j + d) + b by ring, Bases.rep_get 2 _ _ b hb]
      rw [Spectra.steps_get 0 _ _ (by rw [Bases.rep_length]; omega)]
      have h0 := rep_getD 3 f j 0 (by omega)
      have h1 := rep_getD 3 f j 1 (by omega)
      have h3 := rep_getD 3 f j 2 (by omega)
      rcases hd with rfl | rfl
      · rw [if_neg (by omega), h1, show 3 * j + 1 - 1 = 3 * j + 0 by omega, h0, sub_self]
      · rw [if_neg (by omega), h3, show 3 * j + 2 - 1 = 3 * j + 1 by omega, h1, sub_self]
    rw [e]
    cases (Bases.rep 6 f)[6 * j + c]? <;> simp

/-! ## An example -/

/-- A pulsar with two TOAs and a position with three distinct coordinates. -/
noncomputable def exC : Member where
  toas := [0, 1]
  pos := ![2 / 7, 3 / 7, 6 / 7]
  res := fun _ => 1
  noise := [some (.base (.arr fun _ => 1))]

/-- Another, with a process of its own. -/
noncomputable def exD : Member where
  toas := [0, 1]
  pos := ![3 / 7, 6 / 7, 2 / 7]
  res := fun _ => 2
  noise := [some (.base (.arr fun _ => 1))]
  before := [exSig]

theorem exSig_ok : exSig.varying = false ∧ SigOk exSig ∧ Collect.PriorPos exSig := by
  refine ⟨rfl, ?_, ?_⟩
  · intro F hF
    have hF : some [fun _ => (1 : ℝ)] = some F := hF
    cases hF
    exact ⟨by simp, rfl, fun _ => rfl, rfl, fun _ _ => by simp⟩
  · intro _
    have : toMatrix 1 (amat (.one 1 fun _ => (3 : ℝ))) = Matrix.diagonal fun _ => (3 : ℝ) := by
      ext i j
      fin_cases i; fin_cases j
      simp [toMatrix, amat]
    show (toMatrix 1 (amat (.one 1 fun _ => (3 : ℝ)))).PosDef
    rw [this]
    exact Matrix.PosDef.diagonal fun _ => by norm_num

theorem ex_rows (x y z : ℝ) : Bases.ephemRow (x, y, z) (Bases.row 0 (Bases.harmonics 1 4) (List.replicate 1 0)) = [0, 0, 0, x, y, z] ∧
    Bases.ephemRow (x, y, z) (Bases.row 1 (Bases.harmonics 1 4) (List.replicate 1 0)) = [x, y, z, 0, 0, 0] := by
  have e : 2 * Real.pi * (1 / 4) = Real.pi / 2 := by ring
  constructor
  · simp [Bases.row, Bases.harmonics, Bases.ephemRow]
  · simp [Bases.row, Bases.harmonics, Bases.ephemRow]
    simp only [← one_div, e]
    simp

theorem ex_distinct (m : Member) (x y z : ℝ) (hp : m.pos = ![x, y, z]) (ht : m.toas = [0, 1]) (h : x ≠ y ∧ x ≠ z ∧ y ≠ z ∧ x ≠ 0 ∧ y ≠ 0 ∧ z ≠ 0) :
    EphDistinct 1 4 m := by
  intro c c' hc hc' hne
  obtain ⟨h1, h2⟩ := ex_rows x y z
  have e : (m.pos 0, m.pos 1, m.pos 2) = (x, y, z) := by rw [hp]; rfl
  rw [e, ht]
  obtain ⟨a1, a2, a3, a4, a5, a6⟩ := h
  have b1 := a1.symm
  have b2 := a2.symm
  have b3 := a3.symm
  have b4 := a4.symm
  have b5 := a5.symm
  have b6 := a6.symm
  by_cases hb : c < 3 ∧ c' < 3
  · refine ⟨1, by simp, ?_⟩
    rw [h2]
    have h3 : c = 0 ∨ c = 1 ∨ c = 2 := by omega
    have h4 : c' = 0 ∨ c' = 1 ∨ c' = 2 := by omega
    rcases h3 with rfl | rfl | rfl <;> rcases h4 with rfl | rfl | rfl <;> first | exact absurd rfl hne | simpa
  · refine ⟨0, by simp, ?_⟩
    rw [h1]
    have h3 : c = 0 ∨ c = 1 ∨ c = 2 ∨ c = 3 ∨ c = 4 ∨ c = 5 := by omega
    have h4 : c' = 0 ∨ c' = 1 ∨ c' = 2 ∨ c' = 3 ∨ c' = 4 ∨ c' = 5 := by omega
    rcases h3 with rfl | rfl | rfl | rfl | rfl | rfl <;> rcases h4 with rfl | rfl | rfl | rfl | rfl | rfl <;>
      first | exact absurd rfl hne | exact absurd ⟨by omega, by omega⟩ hb | simpa

/-- The two pulsars with an ephemeris process of one mode. -/
example (hash : Col ℝ → H) (hh : Function.Injective hash) (svd : ∀ {n : Nat} (M : Matrix (Fin n) (Fin n) ℝ), Svd M) (seeded : Int → Bases.Rng)
    (rng : Bases.Rng) :
    ∃ ps qs, membersOf id (ephemGsig seeded (fun f => Spectra.powerlaw f (-14) (13 / 3) 6) 1 (some 4)) [exC, exD] rng = .ok ps ∧
      members seeded ⟨{ nmodes := 1 }, true, fun f => Spectra.powerlaw f (-14) (13 / 3) 2⟩ 4 [exC, exD] rng = .ok qs ∧
      likelihood hash svd .cliques (fun _ => Orf.monopoleOrf) ps = likelihood hash svd .sparse (fun _ => Orf.dipoleOrf) qs := by
  have mem : ∀ m ∈ [exC, exD], m = exC ∨ m = exD := by
    intro m hm
    simpa using hm
  have sig : ∀ m ∈ [exC, exD], ∀ b ∈ m.before ++ m.after, b = exSig := by
    intro m hm b hb
    rcases mem m hm with rfl | rfl
    · simp [exC] at hb
    · simpa [exD] using hb
  refine C113_dipole hash hh svd .cliques .sparse (by simp) (by simp) seeded rng rng { nmodes := 1 } ⟨rfl, rfl, rfl, rfl⟩ rfl rfl (by simp) true
    (-14) (13 / 3) 4 (by norm_num) [exC, exD] (fun m hm b hb => by rw [sig m hm b hb]; exact exSig_ok) (fun m hm b hb => by
      rw [sig m hm b hb]
      exact ⟨_, _, rfl⟩) ?_ ?_ ?_ ?_ ?_
  · intro m hm
    rcases mem m hm with rfl | rfl
    · simp only [exC, Orf.IsUnit3, Orf.dot, Fin.sum_univ_three]
      show (2 / 7 : ℝ) * (2 / 7) + 3 / 7 * (3 / 7) + 6 / 7 * (6 / 7) = 1
      norm_num
    · simp only [exD, Orf.IsUnit3, Orf.dot, Fin.sum_univ_three]
      show (3 / 7 : ℝ) * (3 / 7) + 6 / 7 * (6 / 7) + 2 / 7 * (2 / 7) = 1
      norm_num
  · simp only [List.map_cons, List.map_nil, List.nodup_cons, List.mem_singleton, List.not_mem_nil, not_false_eq_true, List.nodup_nil, and_true]
    intro h
    have : (2 / 7 : ℝ) = 3 / 7 := congrFun h 0
    norm_num at this
  · intro m hm
    have key : ∀ n : Nat, ∃ (k : Nat) (N : Matrix (Fin n) (Fin n) ℝ) (M : Matrix (Fin n) (Fin k) ℝ) (o : Nmat n ℝ),
        getNdiag ([some (.base (.arr fun _ : Fin n => (1 : ℝ)))] : List (Option (Nmat n ℝ))).reduceOption = .ok o ∧ Whole o N M fun _ => True := fun n =>
      ⟨0, Matrix.diagonal fun _ => 1, 0, .base (.arr fun _ => 1), rfl, whole_base (arr_exact (fun _ : Fin n => (1 : ℝ)) fun _ => one_pos) 0⟩
    rcases mem m hm with rfl | rfl
    · exact key 2
    · exact key 2
  · intro m hm
    rcases mem m hm with rfl | rfl
    · exact ex_distinct exC _ _ _ rfl rfl (by norm_num)
    · exact ex_distinct exD _ _ _ rfl rfl (by norm_num)
  · intro _ m hm c c' hc hc' hne
    have h0 : (0 : ℝ) ∈ m.toas := by
      rcases mem m hm with rfl | rfl <;> simp [exC, exD]
    refine ⟨0, h0, ?_⟩
    have : c = 0 ∧ c' = 1 ∨ c = 1 ∧ c' = 0 := by
      have : c < 2 := hc
      have : c' < 2 := hc'
      omega
    rcases this with ⟨rfl, rfl⟩ | ⟨rfl, rfl⟩ <;> simp [Bases.row, Bases.harmonics]

/-- The second pulsar with the same signals in another order. -/
noncomputable def exE : Member := { exD with before := [], after := [exSig] }

theorem ex_white (n : Nat) : ∃ (k : Nat) (N : Matrix (Fin n) (Fin n) ℝ) (M : Matrix (Fin n) (Fin k) ℝ) (o : Nmat n ℝ),
    getNdiag ([some (.base (.arr fun _ : Fin n => (1 : ℝ)))] : List (Option (Nmat n ℝ))).reduceOption = .ok o ∧ Whole o N M fun _ => True :=
  ⟨0, Matrix.diagonal fun _ => 1, 0, .base (.arr fun _ => 1), rfl, whole_base (arr_exact (fun _ : Fin n => (1 : ℝ)) fun _ => one_pos) 0⟩

/-- C112 for a pulsar whose process comes before or after the common process. -/
example (hash : Col ℝ → H) (hh : Function.Injective hash) (svd : ∀ {n : Nat} (M : Matrix (Fin n) (Fin n) ℝ), Svd M) (seeded : Int → Bases.Rng)
    (rng : Bases.Rng) :
    ∃ ps qs, members seeded ⟨{ nmodes := 1 }, false, fun f => Spectra.powerlaw f (-14) (13 / 3) 2⟩ 4 [exC, exD] rng = .ok ps ∧
      members seeded ⟨{ nmodes := 1 }, false, fun f => Spectra.powerlaw f (-14) (13 / 3) 2⟩ 4 [exC, exE] rng = .ok qs ∧ ps ≠ qs ∧
      likelihood hash svd .sparse (fun _ => Orf.monopoleOrf) ps = likelihood hash svd .sparse (fun _ => Orf.monopoleOrf) qs := by
  have nodup : ∀ x : Member, x.pos = exD.pos → ([exC, x].map Member.pos).Nodup := by
    intro x hx
    simp only [List.map_cons, List.map_nil, List.nodup_cons, List.mem_singleton, List.not_mem_nil, not_false_eq_true, List.nodup_nil, and_true, hx]
    intro h
    have : (2 / 7 : ℝ) = 3 / 7 := congrFun h 0
    norm_num at this
  have apt : ∀ x : Member, x.pos = exD.pos → (∀ b ∈ x.before ++ x.after, b = exSig) → _ := fun x hx hs =>
    powerlaw_apt hash hh Orf.monopoleOrf seeded rng { nmodes := 1 } ⟨rfl, rfl, rfl, rfl⟩ rfl rfl (by simp) false (-14) (13 / 3) 4 (by norm_num) [exC, x]
      (by
        intro m hm b hb
        have : m = exC ∨ m = x := by simpa using hm
        rcases this with rfl | rfl
        · simp [exC] at hb
        · rw [hs b hb]; exact exSig_ok) (Orf.C71_monopole _ (pos_inj (nodup x hx))) (by simp)
  obtain ⟨ps, h1, h2, h3⟩ := apt exD rfl (by simp [exD])
  obtain ⟨qs, h4, h5, -⟩ := apt exE rfl (by simp [exE])
  have h1' := h1
  have h4' := h4
  simp only [members] at h1 h4
  split at h1
  · cases h1
  rename_i g1 r1 e1
  split at h1
  · cases h1
  rename_i l1 e2
  split at e2
  · cases e2
  rename_i g2 r2 e3
  cases e2
  cases h1
  rw [e1] at h4
  simp only [show exE.toas = exD.toas from rfl, e3] at h4
  cases h4
  refine ⟨_, _, h1', h4', ?_, C112_order hash svd _ _ _ ?_ h2 h5 ?_⟩
  · intro e
    have h := congrArg (fun l : List JPsr => (l[1]?.elim [] JPsr.gps)[0]?.map GSig.cls) e
    have hg : g2.cls = some 0 := by
      obtain ⟨g, φ, h7, h8, -⟩ := array_get' h3 1 exD rfl
      have h7 : (exD.psr g2) = exD.psr g := Option.some.inj h7
      have : [ownSig exSig, g2] = [ownSig exSig, g] := congrArg JPsr.gps h7
      simp only [List.cons.injEq, true_and, and_true] at this
      rw [this]
      exact h8.cls
    simp only [List.getElem?_cons_succ, List.getElem?_cons_zero, Option.elim_some] at h
    have h : some (ownSig exSig).cls = some g2.cls := h
    rw [hg] at h
    cases h
  · refine .cons ⟨_, rfl, List.Perm.refl _⟩ (.cons ⟨_, rfl, ?_⟩ .nil)
    exact List.Perm.swap _ _ _
  · intro p hp
    have : p = exC.psr g1 ∨ p = exD.psr g2 := by simpa using hp
    rcases this with rfl | rfl
    · exact ex_white 2
    · exact ex_white 2

end Verif.Background
