import Verif.Model.Background
import Verif.Props.Members

/-!
# Property C111: the covariance of an array with a common process, written out
-/

namespace Verif.Background

open Verif Verif.Likelihood Verif.Noise Verif.Combine Verif.Joined Finset
open Verif.Orf (Pos orfMatrix)
open Verif.PhiInv (toMatrix)
open Verif.Kernel (Arr)
open Verif.Partition (Svd)

variable {H : Type} [DecidableEq H]

/-! ## The process in a pulsar -/

/-- What the common process with frequencies `f` and variances `w` is in a pulsar: waves with the phases `φ`. -/
structure Gw (k : Common) (f w toas : List ℝ) (g : GSig) (φ : List ℝ) : Prop where
  alike : Alike k.combine (Bases.rep 2 w) g
  phase : φ.length = f.length
  entry : ∀ p i, p < 2 * f.length → i < toas.length → (g.basisAt.getD p fun _ => 0) i = (Bases.row (toas.getD i 0) f φ).getD p 0
  zero : k.args.pshift = false → k.args.pseed = none → ∀ j, φ.getD j 0 = 0
  out : ∀ p i, toas.length ≤ i → (g.basisAt.getD p fun _ => 0) i = 0

theorem gsig_gw (k : Common) (seeded : Int → Bases.Rng) (T : ℝ) (f w : List ℝ)
    (hf : ∀ toas, Bases.freqs toas { k.args with Tspan := some T } = .ok (f, false)) (hS : k.spectrum (Bases.rep 2 f) = .ok (Bases.rep 2 w))
    (hwl : w.length = f.length) (toas : List ℝ) (rng rng' : Bases.Rng) (g : GSig) (h : k.gsig seeded T toas rng = .ok (g, rng')) : ∃ φ, Gw k f w toas g φ := by
  unfold Common.gsig at h
  split at h
  · cases h
  · rename_i F fr r1 h1
    obtain ⟨f', φ, a1, a2, a3, a4, a5⟩ := Bases.red_ok h1
    rw [hf] at a1
    simp only [Except.ok.injEq, Prod.mk.injEq, and_true] at a1
    subst a1
    rw [a5, hS] at h
    simp only [Except.ok.injEq, Prod.mk.injEq] at h
    obtain ⟨rfl, -⟩ := h
    refine ⟨φ, ⟨rfl, rfl, rfl, ?_, rfl, rfl⟩, a3, ?_, ?_, ?_⟩
    · simp [Fourier.columns_length, Bases.rep_length, hwl]
    · intro p i hp hi
      have hp' : p < (Fourier.columns (Bases.rep 2 f).length F).length := by
        rw [Fourier.columns_length, Bases.rep_length]; exact hp
      have := Fourier.columns_get (Bases.rep 2 f).length F p i (by rw [Bases.rep_length]; exact hp)
      have e : (((Fourier.columns (Bases.rep 2 f).length F).map fun (c : List ℝ) (a : Nat) => c.getD a 0).getD p fun _ => 0) i =
          ((Fourier.columns (Bases.rep 2 f).length F).getD p []).getD i 0 := by
        simp only [List.getD_eq_getElem?_getD, List.getElem?_map, List.getElem?_eq_getElem hp', Option.map_some, Option.getD_some]
      refine e.trans (this.trans ?_)
      rw [a4]
      congr 1
      simp only [List.getD_eq_getElem?_getD, List.getElem?_map, List.getElem?_eq_getElem hi, Option.map_some, Option.getD_some]
    · intro hp hs j
      unfold Bases.phases at a2
      simp only [hs, hp, Bool.false_eq_true, if_false, Except.ok.injEq, Prod.mk.injEq] at a2
      rw [← a2.1, List.getD_eq_getElem?_getD, List.getElem?_replicate]
      split <;> rfl
    · intro p i hi
      have hF : F.length = toas.length := by rw [a4, List.length_map]
      simp only [Fourier.columns, List.getD_eq_getElem?_getD, List.getElem?_map]
      cases h : (List.range (Bases.rep 2 f).length)[p]? with
      | none => rfl
      | some q =>
        simp only [Option.map_some, Option.getD_some, List.getElem?_map]
        rw [List.getElem?_eq_none (by rw [hF]; exact hi)]
        rfl

theorem gw_cross {k : Common} {f w toas toas' : List ℝ} {g g' : GSig} {φ φ' : List ℝ} (h : Gw k f w toas g φ) (h' : Gw k f w toas' g' φ')
    (hwl : w.length = f.length) (i j : Nat) (hi : i < toas.length) (hj : j < toas'.length) :
    crossCov g g' i j = Fourier.shifted w f φ φ' (toas.getD i 0) (toas'.getD j 0) := by
  rw [crossCov, h.alike.len, h'.alike.len, Bases.rep_length, hwl, ← Fourier.rows_sum _ _ f φ φ' w h.phase h'.phase]
  apply sum_congr rfl
  intro p hp
  have hp' := mem_range.1 hp
  rw [sum_eq_single p]
  · rw [h.entry p i hp' hi, h'.entry p j hp' hj, h.alike.prior, Fourier.amat_one, if_pos rfl]
  · intro q _ hqp
    rw [h.alike.prior, Fourier.amat_one, if_neg fun e => hqp e.symm]
    ring
  · intro h0
    exact absurd hp h0

/-! ## The array -/

theorem members_forall (seeded : Int → Bases.Rng) (k : Common) (T : ℝ) (ms : List Member) : ∀ (rng : Bases.Rng) (ps : List JPsr),
    members seeded k T ms rng = .ok ps → List.Forall₂ (fun m p => ∃ g r r', k.gsig seeded T m.toas r = .ok (g, r') ∧ p = m.psr g) ms ps := by
  induction ms with
  | nil => intro rng ps h; cases h; exact .nil
  | cons m t ih =>
    intro rng ps h
    rw [members] at h
    split at h
    · cases h
    · rename_i g rng' h1
      split at h
      · cases h
      · rename_i l h2
        cases h
        exact .cons ⟨g, rng, rng', h1, rfl⟩ (ih _ _ h2)

/-- Without a seed the common process can always be built, whether phases are shifted or not. -/
theorem members_ok (seeded : Int → Bases.Rng) (k : Common) (T : ℝ) (f w : List ℝ) (hs : k.args.pseed = none)
    (hf : ∀ toas, Bases.freqs toas { k.args with Tspan := some T } = .ok (f, false)) (hS : k.spectrum (Bases.rep 2 f) = .ok (Bases.rep 2 w))
    (ms : List Member) : ∀ rng, ∃ ps, members seeded k T ms rng = .ok ps := by
  induction ms with
  | nil => intro rng; exact ⟨[], rfl⟩
  | cons m t ih =>
    intro rng
    have : ∃ g rng', k.gsig seeded T m.toas rng = .ok (g, rng') := by
      have hp : ∃ φ r, Bases.phases seeded rng m.toas { k.args with Tspan := some T } f.length = .ok (φ, r) := by
        unfold Bases.phases
        simp only [hs]
        split <;> exact ⟨_, _, rfl⟩
      obtain ⟨φ, r, hp⟩ := hp
      unfold Common.gsig Bases.red
      rw [hf]
      simp only [bind, Except.bind, hp, Bool.false_eq_true, if_false, hS]
      exact ⟨_, _, rfl⟩
    obtain ⟨g, rng', hg⟩ := this
    obtain ⟨l, hl⟩ := ih rng'
    refine ⟨m.psr g :: l, ?_⟩
    rw [members, hg]
    simp only [hl]

theorem members_array (seeded : Int → Bases.Rng) (k : Common) (T : ℝ) (f w : List ℝ)
    (hf : ∀ toas, Bases.freqs toas { k.args with Tspan := some T } = .ok (f, false)) (hS : k.spectrum (Bases.rep 2 f) = .ok (Bases.rep 2 w))
    (hwl : w.length = f.length) (ms : List Member) (rng : Bases.Rng) (ps : List JPsr) (h : members seeded k T ms rng = .ok ps) :
    Array' k.combine (Bases.rep 2 w) (fun m g φ => Gw k f w m.toas g φ) ms ps := by
  refine (members_forall seeded k T ms rng ps h).imp ?_
  rintro m p ⟨g, r, r', h1, h2⟩
  obtain ⟨φ, h3⟩ := gsig_gw k seeded T f w hf hS hwl m.toas r r' g h1
  exact ⟨g, φ, h2, h3.alike, h3⟩

/-- TOA `i` of pulsar `a`. -/
def toaAt (ms : List Member) (a i : Nat) : ℝ := (ms[a]?.elim [] Member.toas).getD i 0

theorem toaAt_eq {ms : List Member} {a : Nat} {m : Member} (h : ms[a]? = some m) (i : Nat) : toaAt ms a i = m.toas.getD i 0 := by
  rw [toaAt, h]; rfl

/-- C111: the likelihood of an array with a common process of any spectrum is the density of a Gaussian whose covariance is
written out, with whatever other processes in the pulsars, phases shifted or not. -/
theorem C111_sparse (hash : Col ℝ → H) (hh : Function.Injective hash) (svd : ∀ {n : Nat} (M : Matrix (Fin n) (Fin n) ℝ), Svd M)
    (seeded : Int → Bases.Rng) (orf : Pos → Pos → ℝ) (k : Common) (T : ℝ) (f w : List ℝ) (h0 : f ≠ [])
    (hf : ∀ toas, Bases.freqs toas { k.args with Tspan := some T } = .ok (f, false)) (hS : k.spectrum (Bases.rep 2 f) = .ok (Bases.rep 2 w))
    (hwl : w.length = f.length) (hw : ∀ x ∈ w, 0 < x) (ms : List Member) (hown : ∀ m ∈ ms, OwnOk m)
    (horf : (orfMatrix orf fun u : Fin ms.length => (ms[u]).pos).PosDef) (rng : Bases.Rng) (ps : List JPsr)
    (hps : members seeded k T ms rng = .ok ps) (hd : k.combine = true → ∀ p ∈ ps, ∀ g ∈ p.gps, g.cls = some 0 → g.basisAt.Nodup) :
    ∃ φ : Nat → List ℝ, (k.args.pshift = false → k.args.pseed = none → ∀ a j, (φ a).getD j 0 = 0) ∧
      ∀ (m : JPsr → Nat) (N : ∀ p : JPsr, Matrix (Fin p.n) (Fin p.n) ℝ) (M : ∀ p : JPsr, Matrix (Fin p.n) (Fin (m p)) ℝ), NoiseIs ps m N M →
        ∃ C, IsCov orf (fun a b i j => Fourier.shifted w f (φ a) (φ b) (toaAt ms a i) (toaAt ms b j)) ms ps N C ∧
          likelihood hash svd .sparse (fun _ => orf) ps =
            .ok (some (margLog C (Joint.jm JPsr.n m M ps) (Joint.jv JPsr.n (fun p => p.res - p.delays.reduceOption.sum) ps) +
              (ps.map fun p => p.logprior.sum).sum)) := by
  have harr := members_array seeded k T f w hf hS hwl ms rng ps hps
  have hapt := apt_array hash hh orf (by
    intro e
    have := congrArg List.length e
    rw [Bases.rep_length, hwl, List.length_nil] at this
    have := List.length_pos_iff.2 h0
    omega) (fun x hx => hw x (Fourier.mem_rep hx)) harr hown hd horf
  obtain ⟨φ, h1, h2⟩ := density_array orf harr
  refine ⟨φ, fun hp hs a j => ?_, fun m N M hN => ?_⟩
  · rcases h1 a with ⟨m, g, -, -, h⟩ | h
    · exact h.zero hp hs j
    · rw [h]; simp
  · obtain ⟨C, h3, h4⟩ := h2 (fun a b i j => Fourier.shifted w f (φ a) (φ b) (toaAt ms a i) (toaAt ms b j)) (by
      intro a b m m' g g' hm hm' _ _ hR hR' i j hi hj
      rw [gw_cross hR hR' hwl i j hi hj, toaAt_eq hm, toaAt_eq hm']) m N M
    exact ⟨C, h3, by rw [C107_sparse hash svd _ ps hapt m N M hN, h4]⟩

/-- The phases agree if there are none. -/
theorem shifted_zero (w f φ φ' : List ℝ) (h : ∀ j, φ.getD j 0 = 0) (h' : ∀ j, φ'.getD j 0 = 0) (t t' : ℝ) :
    Fourier.shifted w f φ φ' t t' = Fourier.wave w f t t' := by
  unfold Fourier.shifted Fourier.wave
  apply sum_congr rfl
  intro j _
  rw [h, h', sub_zero, add_zero]

theorem wave_power (A γ T : ℝ) (n : Nat) (t t' : ℝ) :
    Fourier.wave ((List.range n).map (Fourier.plaw A γ T)) (Bases.harmonics n T) t t' =
      ∑ j ∈ range n, Fourier.plaw A γ T j * Real.cos (2 * Real.pi * (((j : ℝ) + 1) / T) * (t - t')) := by
  unfold Fourier.wave
  have hl : (Bases.harmonics n T).length = n := by simp [Bases.harmonics]
  rw [hl]
  apply sum_congr rfl
  intro j hj
  have hj := mem_range.1 hj
  have e1 : ((List.range n).map (Fourier.plaw A γ T)).getD j 0 = Fourier.plaw A γ T j := by
    simp [List.getD_eq_getElem?_getD, hj]
  have e2 : (Bases.harmonics n T).getD j 0 = ((j : ℝ) + 1) / T := by
    simp [List.getD_eq_getElem?_getD, Bases.harmonics, hj]
  rw [e1, e2]

/-- The columns of the basis of `nmodes` harmonics of `T` are distinct at these TOAs. -/
def DistinctAt (nmodes : Nat) (T : ℝ) (toas : List ℝ) : Prop :=
  ∀ c c', c < 2 * nmodes → c' < 2 * nmodes → c ≠ c' → ∃ t ∈ toas,
    (Bases.row t (Bases.harmonics nmodes T) (List.replicate nmodes 0)).getD c 0 ≠ (Bases.row t (Bases.harmonics nmodes T) (List.replicate nmodes 0)).getD c' 0

theorem powerlaw_apt (hash : Col ℝ → H) (hh : Function.Injective hash) (orf : Pos → Pos → ℝ) (seeded : Int → Bases.Rng) (rng : Bases.Rng)
    (args : Bases.Args) (ha : Bases.Plain args)
    (hp : args.pshift = false) (hs : args.pseed = none) (hn : args.nmodes ≠ 0) (combine : Bool) (A γ T : ℝ) (hT : 0 < T)
    (ms : List Member) (hown : ∀ m ∈ ms, OwnOk m) (hpos : (orfMatrix orf fun u : Fin ms.length => (ms[u]).pos).PosDef)
    (hd : combine = true → ∀ m ∈ ms, DistinctAt args.nmodes T m.toas) :
    ∃ ps, members seeded ⟨args, combine, fun f => Spectra.powerlaw f A γ 2⟩ T ms rng = .ok ps ∧ Apt hash (fun _ => orf) ps ∧
      Array' combine (Bases.rep 2 ((List.range args.nmodes).map (Fourier.plaw A γ T))) (fun m g φ => Gw ⟨args, combine, fun f => Spectra.powerlaw f A γ 2⟩
        (Bases.harmonics args.nmodes T) ((List.range args.nmodes).map (Fourier.plaw A γ T)) m.toas g φ) ms ps := by
  let k : Common := ⟨args, combine, fun f => Spectra.powerlaw f A γ 2⟩
  let f := Bases.harmonics args.nmodes T
  let w := (List.range args.nmodes).map (Fourier.plaw A γ T)
  have hfl : f.length = args.nmodes := by simp [f, Bases.harmonics]
  have hf : ∀ toas, Bases.freqs toas { k.args with Tspan := some T } = .ok (f, false) := by
    intro toas
    obtain ⟨a1, a2, a3, a4⟩ := ha
    unfold Bases.freqs
    simp only [Bases.tspan, bind, Except.bind, k, a1, a2, a3, a4, and_self, if_true]
    rfl
  have hS : k.spectrum (Bases.rep 2 f) = .ok (Bases.rep 2 w) := Fourier.powerlaw_harmonics A γ args.nmodes T hT
  have h0 : f ≠ [] := by
    intro e
    rw [e] at hfl
    exact hn hfl.symm
  obtain ⟨ps, hps⟩ := members_ok seeded k T f w hs hf hS ms rng
  have hwl : w.length = f.length := by simp [w, hfl]
  have harr := members_array seeded k T f w hf hS hwl ms rng ps hps
  have hget : ∀ p ∈ ps, ∃ m ∈ ms, ∃ g φ, p = m.psr g ∧ Gw k f w m.toas g φ := by
    intro p hp
    obtain ⟨m, hm, g, φ, h1, -, h2⟩ := Fourier.forall₂_right harr p hp
    exact ⟨m, hm, g, φ, h1, h2⟩
  have hnd : k.combine = true → ∀ p ∈ ps, ∀ g ∈ p.gps, g.cls = some 0 → g.basisAt.Nodup := by
    intro hc p hpp g hg hcls
    obtain ⟨m, hm, g0, φ0, rfl, hg0⟩ := hget p hpp
    rcases mem_gps hg with rfl | ⟨b, -, rfl⟩
    · rw [List.nodup_iff_injective_get]
      intro c c' hcc
      by_contra hne'
      have hlen : g.basisAt.length = 2 * f.length := by rw [hg0.alike.len, Bases.rep_length, hwl]
      have hc1 : c.1 < 2 * f.length := by rw [← hlen]; exact c.2
      have hc2 : c'.1 < 2 * f.length := by rw [← hlen]; exact c'.2
      obtain ⟨t, ht, hrow⟩ := hd hc m hm c.1 c'.1 (by rw [← hfl]; exact hc1) (by rw [← hfl]; exact hc2) fun e => hne' (Fin.ext e)
      obtain ⟨i, hi, rfl⟩ := List.getElem_of_mem ht
      have e1 := hg0.entry c.1 i hc1 hi
      have e2 := hg0.entry c'.1 i hc2 hi
      have hφ : φ0 = List.replicate args.nmodes 0 := by
        apply List.ext_getElem
        · rw [hg0.phase, hfl, List.length_replicate]
        · intro j hj1 hj2
          have := hg0.zero hp hs j
          rw [List.getD_eq_getElem?_getD, List.getElem?_eq_getElem hj1] at this
          rw [List.getElem_replicate]
          exact this
      have ei : m.toas.getD i 0 = m.toas[i] := by rw [List.getD_eq_getElem?_getD, List.getElem?_eq_getElem hi]; rfl
      rw [hφ, ei] at e1 e2
      apply hrow
      rw [← e1, ← e2]
      have g1 : (g.basisAt.getD c.1 fun _ => 0) = g.basisAt.get c := by
        rw [List.getD_eq_getElem?_getD, List.getElem?_eq_getElem c.2]; rfl
      have g2 : (g.basisAt.getD c'.1 fun _ => 0) = g.basisAt.get c' := by
        rw [List.getD_eq_getElem?_getD, List.getElem?_eq_getElem c'.2]; rfl
      rw [g1, g2, hcc]
    · cases hcls
  have hapt := apt_array hash hh orf (by
    intro e
    have := congrArg List.length e
    rw [Bases.rep_length, hwl, List.length_nil] at this
    have := List.length_pos_iff.2 h0
    omega) (by
    intro x hx
    obtain ⟨j, -, rfl⟩ := List.mem_map.1 (Fourier.mem_rep hx)
    exact Fourier.plaw_pos A γ T hT j) harr hown hnd hpos
  exact ⟨ps, hps, hapt, harr⟩

/-- C111: a common process with a power law and overlaps `orf` in pulsars with their own noise and processes, whatever the method:
the covariance between two TOAs is the overlap of their pulsars times the sum over the harmonics of the time span of the variances
of the power law and the cosine of the phase between the TOAs, and within a pulsar that of its own noise and processes. -/
theorem C111_powerlaw (hash : Col ℝ → H) (hh : Function.Injective hash) (svd : ∀ {n : Nat} (M : Matrix (Fin n) (Fin n) ℝ), Svd M)
    (method : Method) (hm : method ≠ .other) (orf : Pos → Pos → ℝ) (seeded : Int → Bases.Rng) (rng : Bases.Rng) (args : Bases.Args) (ha : Bases.Plain args)
    (hp : args.pshift = false) (hs : args.pseed = none) (hn : args.nmodes ≠ 0) (combine : Bool) (A γ T : ℝ) (hT : 0 < T)
    (ms : List Member) (hown : ∀ m ∈ ms, OwnOk m) (hvec : ∀ m ∈ ms, ∀ b ∈ m.before ++ m.after, ∃ n v, b.phi = .one n v)
    (hpos : (orfMatrix orf fun u : Fin ms.length => (ms[u]).pos).PosDef)
    (hd : combine = true → ∀ m ∈ ms, DistinctAt args.nmodes T m.toas) :
    ∃ ps, members seeded ⟨args, combine, fun f => Spectra.powerlaw f A γ 2⟩ T ms rng = .ok ps ∧
      ∀ (m : JPsr → Nat) (N : ∀ p : JPsr, Matrix (Fin p.n) (Fin p.n) ℝ) (M : ∀ p : JPsr, Matrix (Fin p.n) (Fin (m p)) ℝ), NoiseIs ps m N M →
        ∃ C, IsCov orf (fun a b i j => ∑ n ∈ range args.nmodes, Fourier.plaw A γ T n *
            Real.cos (2 * Real.pi * (((n : ℝ) + 1) / T) * (toaAt ms a i - toaAt ms b j))) ms ps N C ∧ likelihood hash svd method (fun _ => orf) ps =
          .ok (some (margLog C (Joint.jm JPsr.n m M ps) (Joint.jv JPsr.n (fun p => p.res - p.delays.reduceOption.sum) ps) +
            (ps.map fun p => p.logprior.sum).sum)) := by
  obtain ⟨ps, hps, hapt, harr⟩ := powerlaw_apt hash hh orf seeded rng args ha hp hs hn combine A γ T hT ms hown hpos hd
  refine ⟨ps, hps, ?_⟩
  obtain ⟨φ, h1, h2⟩ := density_array orf harr
  have hzero : ∀ a j, (φ a).getD j 0 = 0 := by
    intro a j
    rcases h1 a with ⟨m, g, -, -, h⟩ | h
    · exact h.zero hp hs j
    · rw [h]; simp
  have hone := one_class harr hvec
  intro m N M hN
  obtain ⟨C, h3, h4⟩ := h2 _ (by
    intro a b m m' g g' hm hm' _ _ hR hR' i j hi hj
    rw [gw_cross hR hR' (by simp [Bases.harmonics]) i j hi hj, shifted_zero _ _ _ _ (hzero a) (hzero b), wave_power, ← toaAt_eq hm, ← toaAt_eq hm']) m N M
  exact ⟨C, h3, by rw [C107_methods hash svd method hm _ ps hapt 0 hone m N M hN, h4]⟩

theorem pos_inj {ms : List Member} (hne : (ms.map Member.pos).Nodup) : Function.Injective fun u : Fin ms.length => (ms[u]).pos := by
  intro i j hij
  have := (List.Nodup.getElem_inj_iff hne (i := i.1) (j := j.1) (hi := by simp) (hj := by simp)).1 (by simpa using hij)
  exact Fin.ext this

/-- C111: a Hellings-Downs background with a power law, `FourierBasisCommonGP(powerlaw(...), hd_orf())`, in pulsars with their own
noise and processes, whatever the method: the covariance between two TOAs is the Hellings-Downs overlap of their pulsars times the
sum over the harmonics of the time span of the variances of the power law and the cosine of the phase between the TOAs, and within
a pulsar that of its own noise and processes. -/
theorem C111_hellings_downs (hash : Col ℝ → H) (hh : Function.Injective hash) (svd : ∀ {n : Nat} (M : Matrix (Fin n) (Fin n) ℝ), Svd M)
    (method : Method) (hm : method ≠ .other) (seeded : Int → Bases.Rng) (rng : Bases.Rng) (args : Bases.Args) (ha : Bases.Plain args)
    (hp : args.pshift = false) (hs : args.pseed = none) (hn : args.nmodes ≠ 0) (combine : Bool) (A γ T : ℝ) (hT : 0 < T)
    (ms : List Member) (hown : ∀ m ∈ ms, OwnOk m) (hvec : ∀ m ∈ ms, ∀ b ∈ m.before ++ m.after, ∃ n v, b.phi = .one n v)
    (hu : ∀ m ∈ ms, Orf.IsUnit3 m.pos) (hne : (ms.map Member.pos).Nodup)
    (hd : combine = true → ∀ m ∈ ms, DistinctAt args.nmodes T m.toas) :
    ∃ ps, members seeded ⟨args, combine, fun f => Spectra.powerlaw f A γ 2⟩ T ms rng = .ok ps ∧
      ∀ (m : JPsr → Nat) (N : ∀ p : JPsr, Matrix (Fin p.n) (Fin p.n) ℝ) (M : ∀ p : JPsr, Matrix (Fin p.n) (Fin (m p)) ℝ), NoiseIs ps m N M →
        ∃ C, IsCov Orf.hdOrf (fun a b i j => ∑ n ∈ range args.nmodes, Fourier.plaw A γ T n *
            Real.cos (2 * Real.pi * (((n : ℝ) + 1) / T) * (toaAt ms a i - toaAt ms b j))) ms ps N C ∧ likelihood hash svd method (fun _ => Orf.hdOrf) ps =
          .ok (some (margLog C (Joint.jm JPsr.n m M ps) (Joint.jv JPsr.n (fun p => p.res - p.delays.reduceOption.sum) ps) +
            (ps.map fun p => p.logprior.sum).sum)) :=
  C111_powerlaw hash hh svd method hm Orf.hdOrf seeded rng args ha hp hs hn combine A γ T hT ms hown hvec
    (Orf.C71_hd_distinct _ (fun i => hu _ (List.getElem_mem _)) (pos_inj hne)).1 hd

/-! ## An example -/

/-- A pulsar with two TOAs. -/
noncomputable def exA : Member where
  toas := [0, 1]
  pos := ![1, 0, 0]
  res := fun _ => 1
  noise := [some (.base (.arr fun _ => 1))]

/-- A process with one column. -/
noncomputable def exSig : BSig ℝ := ⟨true, false, some [fun _ => 1], [fun _ => 1], .one 1 fun _ => 3⟩

/-- A pulsar in another direction, with one TOA and a process of its own. -/
noncomputable def exB : Member where
  toas := [0]
  pos := ![0, 1, 0]
  res := fun _ => 2
  noise := [some (.base (.arr fun _ => 1))]
  before := [exSig]

/-- The two pulsars with a background of one mode. -/
example (hash : Col ℝ → H) (hh : Function.Injective hash) (svd : ∀ {n : Nat} (M : Matrix (Fin n) (Fin n) ℝ), Svd M) (seeded : Int → Bases.Rng)
    (rng : Bases.Rng) :
    ∃ ps, members seeded ⟨{ nmodes := 1 }, true, fun f => Spectra.powerlaw f (-14) (13 / 3) 2⟩ 4 [exA, exB] rng = .ok ps ∧
      ∃ C, IsCov Orf.hdOrf (fun a b i j => ∑ n ∈ range 1, Fourier.plaw (-14) (13 / 3) 4 n *
          Real.cos (2 * Real.pi * (((n : ℝ) + 1) / 4) * (toaAt [exA, exB] a i - toaAt [exA, exB] b j))) [exA, exB] ps (fun p => Matrix.diagonal fun _ => 1) C ∧
        likelihood hash svd .cliques (fun _ => Orf.hdOrf) ps =
          .ok (some (margLog C (Joint.jm JPsr.n (fun _ => 0) (fun _ => 0) ps) (Joint.jv JPsr.n (fun p => p.res - p.delays.reduceOption.sum) ps) +
            (ps.map fun p => p.logprior.sum).sum)) := by
  have mem : ∀ m ∈ [exA, exB], m = exA ∨ m = exB := by
    intro m hm
    simpa using hm
  have sig : ∀ m ∈ [exA, exB], ∀ b ∈ m.before ++ m.after, b = exSig := by
    intro m hm b hb
    rcases mem m hm with rfl | rfl
    · simp [exA] at hb
    · simpa [exB] using hb
  obtain ⟨ps, h1, h2⟩ := C111_hellings_downs hash hh svd .cliques (by simp) seeded rng { nmodes := 1 } ⟨rfl, rfl, rfl, rfl⟩ rfl rfl (by simp) true
    (-14) (13 / 3) 4 (by norm_num) [exA, exB] (by
      intro m hm b hb
      rw [sig m hm b hb]
      refine ⟨rfl, ?_, ?_⟩
      · intro F hF
        have hF : some [fun _ => (1 : ℝ)] = some F := hF
        cases hF
        exact ⟨by simp, rfl, fun _ => rfl, rfl, fun _ _ => by simp⟩
      · intro _
        have : toMatrix 1 (amat (.one 1 fun _ => (3 : ℝ))) = Matrix.diagonal fun _ => (3 : ℝ) := by
          ext i j
          fin_cases i; fin_cases j
          simp [toMatrix, amat]
        show (toMatrix 1 (amat (.one 1 fun _ => (3 : ℝ)))).PosDef
        rw [this]
        exact Matrix.PosDef.diagonal fun _ => by norm_num) (by
      intro m hm b hb
      rw [sig m hm b hb]
      exact ⟨_, _, rfl⟩) (by
      intro m hm
      rcases mem m hm with rfl | rfl
      · norm_num [exA, Orf.IsUnit3, Orf.dot, Fin.sum_univ_three]
        rfl
      · norm_num [exB, Orf.IsUnit3, Orf.dot, Fin.sum_univ_three]
        rfl) (by
      simp only [List.map_cons, List.map_nil, List.nodup_cons, List.mem_singleton, List.not_mem_nil, not_false_eq_true, List.nodup_nil, and_true]
      intro h
      have := congrFun h 0
      simp [exA, exB] at this) (by
      intro _ m hm c c' hc hc' hne
      have h0 : (0 : ℝ) ∈ m.toas := by
        rcases mem m hm with rfl | rfl <;> simp [exA, exB]
      refine ⟨0, h0, ?_⟩
      have : c = 0 ∧ c' = 1 ∨ c = 1 ∧ c' = 0 := by
        have : c < 2 := hc
        have : c' < 2 := hc'
        omega
      rcases this with ⟨rfl, rfl⟩ | ⟨rfl, rfl⟩ <;> simp [Bases.row, Bases.harmonics])
  refine ⟨ps, h1, h2 (fun _ => 0) (fun p => Matrix.diagonal fun _ => 1) (fun _ => 0) ?_⟩
  intro p hp
  obtain ⟨m, hm, g, r, r', -, rfl⟩ := Fourier.forall₂_right (members_forall _ _ _ _ _ _ h1) p hp
  have key : ∀ n : Nat, ∃ o, getNdiag ([some (.base (.arr fun _ : Fin n => (1 : ℝ)))] : List (Option (Nmat n ℝ))).reduceOption = .ok o ∧
      Whole o (Matrix.diagonal fun _ => 1) (0 : Matrix (Fin n) (Fin 0) ℝ) fun _ => True := fun n =>
    ⟨.base (.arr fun _ => 1), rfl, whole_base (arr_exact (fun _ : Fin n => (1 : ℝ)) fun _ => one_pos) 0⟩
  rcases mem m hm with rfl | rfl
  · exact key 2
  · exact key 1

end Verif.Background
