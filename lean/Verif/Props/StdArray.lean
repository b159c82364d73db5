import Verif.Model.StdArray
import Verif.Props.Several
import Verif.Props.Standard

/-!
# Property C116: the likelihood of an array of pulsars with the usual signals, written out
-/

namespace Verif.StdArray

open Verif Verif.Likelihood Verif.Noise Verif.Combine Verif.Joined Verif.Standard Verif.Background Finset
open Verif.Orf (Pos orfMatrix)
open Verif.Partition (Svd)
open Verif.Kernel (Arr Kern)

variable {H : Type} [DecidableEq H]

/-! ## Specification -/

/-- How a pulsar is read: the white-noise and ECORR parameters of each TOA, and the time span of each process by mask. -/
structure Labels where
  key : Nat → String
  ekey : Nat → String
  T : PowerGP → String → ℝ

/-- What is asked of a pulsar: TOAs, white-noise masks that cover each TOA once, ECORR masks that do not overlap, harmonics of a positive time
span, and a timing model whose columns are distinct, or independent if it is marginalized over. -/
structure Std.Ok (d : Std) (seeded : Int → Bases.Rng) (L : Labels) : Prop where
  toas : d.toas ≠ []
  nu : d.nu.length = d.toas.length
  errs : d.errs.length = d.toas.length
  white : d.white.Pos
  masks : IsPartition d.toas.length d.masks
  key : ∀ km ∈ d.masks, ∀ i, InMask km.2 i → L.key i = km.1
  dt : 0 < d.dt
  ekeys : (d.emasks.map Prod.fst).Nodup
  elen : ∀ km ∈ d.emasks, km.2.length = d.toas.length
  edisj : MasksDisjoint d.emasks
  esome : ∀ km ∈ d.emasks, ∃ i, InMask km.2 i
  ekey : ∀ km ∈ d.emasks, ∀ i, InMask km.2 i → L.ekey i = km.1
  procs : ∀ g ∈ d.procs, g.Usual d.toas (L.T g) ∧ g.Distinct seeded d.toas d.nu
  cols : d.tm.1 ≠ 0
  distinct : d.marg = false → ∀ j j', (∀ i, d.tm.2 i j = d.tm.2 i j') → j = j'
  indep : d.marg = true → Function.Injective d.tm.2.mulVec

/-- The covariance of what a pulsar does not share with others: white noise, ECORR, its own processes, and `1e40 M Mᵀ` for a timing
model that is not marginalized over. -/
noncomputable def Std.own (d : Std) (L : Labels) (same : Nat → Nat → Bool) (i j : Nat) : ℝ :=
  (if i = j then d.white.var (L.key i) (d.errs.getD i 0) else 0) +
    (if same i j = true then ((10 : ℝ) ^ d.log10Ecorr (L.ekey i)) ^ 2 else 0) +
    (d.procs.map fun g => g.cov d.toas d.nu (L.T g) i j).sum +
    (if d.marg then 0 else 1e40 * ∑ c : Fin d.tm.1, spanned d.tm.2 i c * spanned d.tm.2 j c)

/-- The number of TOAs. -/
def size (ds : List (Std × Labels)) : Nat := (ds.map fun d => d.1.toas.length).sum

/-- The number of columns of the timing model if it is marginalized over. -/
def Std.wide (d : Std) : Nat := if d.marg then d.tm.1 else 0

/-- The columns marginalized over, those of each pulsar in the rows of its TOAs. -/
noncomputable def columns (ds : List (Std × Labels)) : Matrix (Fin (size ds)) (Fin (ds.map fun d => d.1.wide).sum) ℝ :=
  Matrix.of fun r c => rect (ds.map fun d => (d.1.toas.length, d.1.wide, spanned d.1.tm.2)) r c

/-- The residuals without the delays, one pulsar after the other. -/
noncomputable def residuals (ds : List (Std × Labels)) (r : Fin (size ds)) : ℝ :=
  concatOf (ds.map fun d => ⟨d.1.toas.length, d.1.res - d.1.delays.reduceOption.sum⟩) r

/-- `C` is the covariance of the TOAs, one pulsar after the other: between TOA `i` of pulsar `a` and TOA `j` of pulsar
`b` the sum over the common processes of overlap times `Σ P(k/T)/T cos(2π k (t - t')/T)`, and what a pulsar has of its own. -/
def IsCov (orf : Nat → Pos → Pos → ℝ) (ks : List Plaw) (ds : List (Std × Labels)) (same : Nat → Nat → Nat → Bool)
    (C : Matrix (Fin (size ds)) (Fin (size ds)) ℝ) : Prop :=
  ∀ (a b : Nat) (d d' : Std × Labels), ds[a]? = some d → ds[b]? = some d' → ∀ i j : Nat, i < d.1.toas.length → j < d'.1.toas.length →
    ∀ r s : Fin (size ds), (r : Nat) = size (ds.take a) + i → (s : Nat) = size (ds.take b) + j →
    C r s = (if a = b then d.1.own d.2 (same a) i j else 0) +
      ∑ c : Fin ks.length, orf c d.1.pos d'.1.pos * (ks[c]).cov (d.1.toas.getD i 0) (d'.1.toas.getD j 0)

/-! ## The noise of a pulsar -/

/-- The covariance of the noise objects of `white_ok`. -/
noncomputable def covN {n : Nat} (noise : List (Option (Nmat n ℝ))) : Matrix (Fin n) (Fin n) ℝ :=
  match getNdiag noise.reduceOption with
  | .ok (.base (.sm ep (.arr v))) => ecorrN ep v
  | .ok (.marg _ _ (.sm ep (.arr v))) => ecorrN ep v
  | _ => 0

/-- The columns they marginalize over. -/
noncomputable def colsN {n : Nat} (noise : List (Option (Nmat n ℝ))) : Σ k : Nat, Matrix (Fin n) (Fin k) ℝ :=
  match getNdiag noise.reduceOption with
  | .ok (.marg m M _) => ⟨m, M⟩
  | _ => ⟨0, 0⟩

theorem covN_base {n : Nat} {noise : List (Option (Nmat n ℝ))} {ep : List (List (Fin n) × ℝ)} {v : Fin n → ℝ}
    (h : getNdiag noise.reduceOption = .ok (.base (.sm ep (.arr v)))) : covN noise = ecorrN ep v ∧ colsN noise = ⟨0, 0⟩ := by
  unfold covN colsN
  rw [h]
  exact ⟨rfl, rfl⟩

theorem covN_marg {n : Nat} {noise : List (Option (Nmat n ℝ))} {B : Σ k : Nat, Matrix (Fin n) (Fin k) ℝ} {ep : List (List (Fin n) × ℝ)}
    {v : Fin n → ℝ} (h : getNdiag noise.reduceOption = .ok (.marg B.1 B.2 (.sm ep (.arr v)))) : covN noise = ecorrN ep v ∧ colsN noise = B := by
  unfold covN colsN
  rw [h]
  exact ⟨rfl, rfl⟩

/-! ## Priors that are vectors -/

theorem phiLoop_one (p : String → List ℝ → Except PyErr (List ℝ)) (labels : Dict String (List ℝ)) (l : List (String × Nat × Nat)) :
    ∀ (φ φ' : Kern ℝ), (∃ n v, φ = .one n v) → BasisGP.phiLoop (Fourier.prior p) labels l φ = .ok φ' → ∃ n v, φ' = .one n v := by
  induction l with
  | nil => intro φ φ' h e; cases e; exact h
  | cons x t ih =>
    rintro φ φ' ⟨n, v, rfl⟩ e
    unfold BasisGP.phiLoop at e
    split at e
    · cases e
    · rename_i f hf
      have hp : ∃ m w, Fourier.prior p x.1 f = .one m w := by
        unfold Fourier.prior
        split <;> exact ⟨_, _, rfl⟩
      obtain ⟨m, w, hp⟩ := hp
      rw [hp] at e
      split at e
      · cases e
      · rename_i φ1 h1
        refine ih φ1 φ' ?_ e
        simp only [Kern.set, Kern.write] at h1
        split at h1
        · cases h1
        · split at h1
          · cases h1
          · cases h1
            exact ⟨_, _, rfl⟩

theorem getPhis_one (ps : List (String → List ℝ → Except PyErr (List ℝ))) : ∀ (s s' : BasisGP.Built ℝ (List ℝ)), (∃ n v, s.phi = .one n v) →
    BasisGP.getPhis s (ps.map Fourier.prior) = .ok s' → ∃ n v, s'.phi = .one n v := by
  induction ps with
  | nil => intro s s' h e; cases e; exact h
  | cons p t ih =>
    intro s s' h e
    rw [List.map_cons, BasisGP.getPhis] at e
    split at e
    · cases e
    · rename_i s1 h1
      refine ih s1 s' ?_ e
      unfold BasisGP.getPhi at h1
      split at h1
      · cases h1
      · rename_i φ hφ
        cases h1
        exact phiLoop_one p _ _ _ _ h hφ

theorem runs_basis (seeded : Int → Bases.Rng) (toas nu : List ℝ) (gs : List PowerGP) (rng : Bases.Rng) (bs : List (BSig ℝ))
    (h : runs seeded toas nu gs rng = .ok bs) (h0 : gs ≠ []) : ∃ b ∈ bs, b.basis ≠ none := by
  cases gs with
  | nil => exact absurd rfl h0
  | cons g t =>
    rw [runs] at h
    split at h
    · cases h
    · rename_i b rng' hb
      split at h
      · cases h
      · cases h
        refine ⟨b, by simp, ?_⟩
        unfold PowerGP.run at hb
        split at hb
        · cases hb
        split at hb
        · cases hb
        split at hb
        · cases hb
        cases hb
        simp [BasisGP.signal]

theorem runs_vec (seeded : Int → Bases.Rng) (toas nu : List ℝ) (gs : List PowerGP) : ∀ (rng : Bases.Rng) (bs : List (BSig ℝ)),
    runs seeded toas nu gs rng = .ok bs → ∀ b ∈ bs, ∃ n v, b.phi = .one n v := by
  induction gs with
  | nil => intro rng bs h; cases h; simp
  | cons g t ih =>
    intro rng bs h
    rw [runs] at h
    split at h
    · cases h
    · rename_i b rng' h1
      split at h
      · cases h
      · rename_i l h2
        cases h
        intro x hx
        rcases List.mem_cons.1 hx with rfl | hx
        · unfold PowerGP.run at h1
          split at h1
          · cases h1
          · split at h1
            · cases h1
            · rename_i s hs
              split at h1
              · cases h1
              · rename_i s' hs'
                simp only [Except.ok.injEq, Prod.mk.injEq] at h1
                obtain ⟨rfl, -⟩ := h1
                obtain ⟨n, v, e⟩ := getPhis_one _ s s' (by
                  unfold BasisGP.construct at hs
                  split at hs
                  · cases hs
                  · simp only at hs
                    split at hs
                    · cases hs
                    · cases hs
                      exact ⟨_, _, rfl⟩) hs'
                exact ⟨n, v, by simp only [BasisGP.signal, e, BasisGP.arrOf]⟩
        · exact ih _ _ h2 x hx

/-! ## One pulsar -/

/-- What is known of the pulsar as a member of the array. -/
structure Made (seeded : Int → Bases.Rng) (d : Std × Labels) (same : Nat → Nat → Bool) (m : Member) : Prop where
  build : ∃ idxs bs, m = d.1.build idxs bs
  epoch : Epoch d.1.toas d.1.dt d.1.emasks same
  own : OwnOk m
  vec : ∀ b ∈ m.before ++ m.after, ∃ n v, b.phi = .one n v
  some : d.1.procs ≠ [] ∨ d.1.marg = false → HasBasis m
  noise : ∃ o, getNdiag m.noise.reduceOption = .ok o ∧ Whole o (covN m.noise) (colsN m.noise).2 fun _ => True
  wide : (colsN m.noise).1 = d.1.wide
  cols : ∀ i c, c < d.1.wide → spanned (colsN m.noise).2 i c = spanned d.1.tm.2 i c
  cov : ∀ i j, i < m.toas.length → j < m.toas.length →
    spanned (covN m.noise) i j + ((m.before ++ m.after).map fun o => sigCov o i j).sum = d.1.own d.2 same i j

theorem member_ok (argsort : List ℝ → List Nat) (hsort : ∀ l, Quantize.IsArgsort l (argsort l)) (seeded : Int → Bases.Rng) (d : Std) (L : Labels)
    (h : d.Ok seeded L) : ∃ same m, d.member argsort seeded = .ok m ∧ Made seeded (d, L) same m := by
  obtain ⟨bs, h1, h2, h3⟩ := runs_ok seeded d.toas d.nu h.nu (d.procs.map fun g => (g, L.T g)) (by
    intro g hg
    obtain ⟨g, hg', rfl⟩ := List.mem_map.1 hg
    exact (h.procs g hg').1) (by
    intro g hg
    obtain ⟨g, hg', rfl⟩ := List.mem_map.1 hg
    exact (h.procs g hg').2) d.rng
  rw [List.map_map, show (Prod.fst ∘ fun g : PowerGP => (g, L.T g)) = id from rfl, List.map_id] at h1
  obtain ⟨idxs, same, g1, g2, g3⟩ := epochs_ok argsort hsort d.toas d.dt h.dt d.emasks h.ekeys h.elen h.edisj h.esome
  obtain ⟨v, k1, k2, k3⟩ := white_ok d.white h.white d.errs d.toas h.errs h.toas d.masks h.masks L.key h.key
  obtain ⟨idxs', g4, hex⟩ := C51_ecorr argsort hsort d.toas d.dt h.dt d.emasks (fun k => (10 : ℝ) ^ (2 * d.log10Ecorr k))
    (fun k => Real.rpow_pos_of_pos (by norm_num) _) h.ekeys h.elen h.edisj h.esome v k2
  rw [g1] at g4
  cases g4
  obtain ⟨k4, k5⟩ := k3 (epochsOf d.toas.length (Quantize.getJvecs idxs fun k => (10 : ℝ) ^ (2 * d.log10Ecorr k)))
  have hvec := runs_vec seeded d.toas d.nu d.procs d.rng bs h1
  have hred : ∀ l : List (Nmat d.toas.length ℝ), (l.map some).reduceOption = l := fun l => by simp [List.reduceOption]
  have hN : ∀ i j, i < d.toas.length → j < d.toas.length →
      spanned (ecorrN (epochsOf d.toas.length (Quantize.getJvecs idxs fun k => (10 : ℝ) ^ (2 * d.log10Ecorr k))) v) i j +
        (bs.map fun b => sigCov b i j).sum = (if i = j then d.white.var (L.key i) (d.errs.getD i 0) else 0) +
    (if same i j = true then ((10 : ℝ) ^ d.log10Ecorr (L.ekey i)) ^ 2 else 0) + (d.procs.map fun g => g.cov d.toas d.nu (L.T g) i j).sum := by
    intro i j hi hj
    rw [h3, spanned, dif_pos ⟨hi, hj⟩, ecorrN, Matrix.add_apply, BasisGP.epochs_sum, g3 _ L.ekey h.ekey, Matrix.diagonal_apply, List.map_map]
    simp only [k1, Fin.mk.injEq, Function.comp_def]
    rw [two_mul, Real.rpow_add (by norm_num), ← sq]
  generalize hep : epochsOf d.toas.length (Quantize.getJvecs idxs fun k => (10 : ℝ) ^ (2 * d.log10Ecorr k)) = ep at hN hex k4 k5
  have hnt : d.marg = true → getNdiag (d.build idxs bs).noise.reduceOption = .ok (.marg d.tm.1 d.tm.2 (.sm ep (.arr v))) := by
    intro hm
    have e : (d.build idxs bs).noise =
        (marginalizing d.tm :: (d.white.noise d.errs d.toas d.masks d.toas.length ++ [Nmat.base (ecorrSM ep)])).map some := by
      unfold Std.build
      simp only [hm, if_true, ecorr, hep]
    rw [e]
    exact (congrArg getNdiag (hred _)).trans (k5 d.tm.1 d.tm.2)
  have hnf : d.marg = false → getNdiag (d.build idxs bs).noise.reduceOption = .ok (.base (.sm ep (.arr v))) := by
    intro hm
    have e : (d.build idxs bs).noise = (d.white.noise d.errs d.toas d.masks d.toas.length ++ [Nmat.base (ecorrSM ep)]).map some := by
      unfold Std.build
      simp only [hm, Bool.false_eq_true, if_false, ecorr, hep]
    rw [e]
    exact (congrArg getNdiag (hred _)).trans k4
  have hcov : covN (d.build idxs bs).noise = ecorrN ep v := by
    cases hm : d.marg
    · exact (covN_base (hnf hm)).1
    · exact (covN_marg (hnt hm)).1
  have hct : d.marg = true → colsN (d.build idxs bs).noise = d.tm := fun hm => (covN_marg (hnt hm)).2
  have hcf : d.marg = false → colsN (d.build idxs bs).noise = ⟨0, 0⟩ := fun hm => (covN_base (hnf hm)).2
  refine ⟨same, d.build idxs bs, by simp only [Std.member, g1, h1], ⟨⟨idxs, bs, rfl⟩, g2, ?_, ?_, ?_, ?_, ?_, ?_, ?_⟩⟩
  · intro b hb
    have hb : b ∈ (if d.marg then bs else timingModel d.tm :: bs) ++ [] := hb
    rw [List.append_nil] at hb
    split at hb
    · exact h2 b hb
    · rename_i hm
      rcases List.mem_cons.1 hb with rfl | hb
      · obtain ⟨t1, t2, -⟩ := timing_ok d.tm h.cols (h.distinct (by simpa using hm))
        exact ⟨rfl, t1, t2⟩
      · exact h2 b hb
  · intro b hb
    have hb : b ∈ (if d.marg then bs else timingModel d.tm :: bs) ++ [] := hb
    rw [List.append_nil] at hb
    split at hb
    · exact hvec b hb
    · rcases List.mem_cons.1 hb with rfl | hb
      · exact ⟨_, _, rfl⟩
      · exact hvec b hb
  · intro hor
    have hb : ∀ b ∈ if d.marg then bs else timingModel d.tm :: bs, b.basis ≠ none → HasBasis (d.build idxs bs) := fun b hb hne =>
      ⟨b, List.mem_append_left _ hb, hne⟩
    cases hm : d.marg
    · exact hb (timingModel d.tm) (by rw [hm]; simp) (by simp [timingModel])
    · obtain ⟨b, h5, h6⟩ := runs_basis seeded d.toas d.nu d.procs d.rng bs h1 (hor.resolve_right (by simp [hm]))
      exact hb b (by rw [hm]; exact h5) h6
  · cases hm : d.marg
    · refine ⟨_, hnf hm, ?_⟩
      rw [hcov, hcf hm]
      exact whole_base hex 0
    · refine ⟨_, hnt hm, ?_⟩
      rw [hcov, hct hm]
      exact whole_marg hex trivial (h.indep hm)
  · unfold Std.wide
    cases hm : d.marg
    · rw [hcf hm]; rfl
    · rw [hct hm]; rfl
  · intro i c hc
    have hc : c < d.wide := hc
    unfold Std.wide at hc
    cases hm : d.marg
    · rw [hm] at hc
      simp at hc
    · rw [hct hm]; rfl
  · intro i j hi hj
    have hi : i < d.toas.length := hi
    have hj : j < d.toas.length := hj
    rw [hcov]
    have e : (d.build idxs bs).before ++ (d.build idxs bs).after = if d.marg then bs else timingModel d.tm :: bs := List.append_nil _
    rw [e]
    unfold Std.own
    cases hm : d.marg
    · simp only [Bool.false_eq_true, if_false, List.map_cons, List.sum_cons]
      have := (timing_ok d.tm h.cols (h.distinct hm)).2.2 ⟨i, hi⟩ ⟨j, hj⟩
      simp only at this
      rw [this, ← hN i j hi hj]
      have hs : ∀ (i : Nat) (hi : i < d.toas.length) (c : Fin d.tm.1), d.tm.2 ⟨i, hi⟩ c = spanned d.tm.2 i c := by
        intro i hi c
        rw [spanned, dif_pos ⟨hi, c.2⟩]
      simp only [hs]
      exact (add_left_comm _ _ _).trans (add_comm _ _)
    · simp only [if_true, add_zero]
      exact hN i j hi hj

theorem own_ok (argsort : List ℝ → List Nat) (hsort : ∀ l, Quantize.IsArgsort l (argsort l)) (seeded : Int → Bases.Rng) (ds : List (Std × Labels))
    (h : ∀ d ∈ ds, d.1.Ok seeded d.2) : ∃ ms, ownSignals argsort seeded (ds.map Prod.fst) = .ok ms ∧
      List.Forall₂ (fun d m => ∃ same, Made seeded d same m) ds ms := by
  induction ds with
  | nil => exact ⟨[], rfl, .nil⟩
  | cons d t ih =>
    obtain ⟨ms, h1, h2⟩ := ih fun d hd => h d (by simp [hd])
    obtain ⟨same, m, h3, h4⟩ := member_ok argsort hsort seeded d.1 d.2 (h d (by simp))
    exact ⟨m :: ms, by simp only [List.map_cons, ownSignals, h3, h1], .cons ⟨same, h4⟩ h2⟩

/-- The method gives the likelihood: `sparse` always, `cliques` if the common processes combine their columns and have one time span,
and all of them if there is at most one common process. -/
def Suits (method : Method) (ks : List Plaw) : Prop :=
  method = .sparse ∨ (method = .cliques ∧ (∀ k ∈ ks, k.combine = true) ∧ ∃ T, ∀ k ∈ ks, k.T = T) ∨ (method ≠ .other ∧ ks.length ≤ 1)

theorem map_of {α β γ : Type} {R : α → β → Prop} {l : List α} {l' : List β} (h : List.Forall₂ R l l') (f : α → γ) (g : β → γ)
    (hfg : ∀ x y, R x y → g y = f x) : l'.map g = l.map f := by
  induction h with
  | nil => rfl
  | cons hr _ ih => rw [List.map_cons, List.map_cons, ih, hfg _ _ hr]

theorem likelihood_suits (hash : Col ℝ → H) (hh : Function.Injective hash) (svd : ∀ {n : Nat} (M : Matrix (Fin n) (Fin n) ℝ), Svd M)
    (method : Method) (seeded : Int → Bases.Rng) (orf : Nat → Pos → Pos → ℝ) (ks : List Plaw) (hu : ∀ k ∈ ks, k.Usual)
    (hs : Suits method ks) (ms : List Member) (h0 : ks ≠ [] ∨ ∀ m ∈ ms, HasBasis m)
    (hown : ∀ m ∈ ms, OwnOk m) (hvec : ∀ m ∈ ms, ∀ b ∈ m.before ++ m.after, ∃ n v, b.phi = .one n v)
    (horf : ∀ c, c < ks.length → (orfMatrix (orf c) fun u : Fin ms.length => (ms[u]).pos).PosDef)
    (hd : ∀ k ∈ ks, k.combine = true → ∀ m ∈ ms, DistinctAt k.args.nmodes k.T m.toas) (rng : Bases.Rng) :
    ∃ ps, arrayOf seeded (ks.map Plaw.common) ms rng = .ok ps ∧
      ∀ (m : JPsr → Nat) (N : ∀ p : JPsr, Matrix (Fin p.n) (Fin p.n) ℝ) (M : ∀ p : JPsr, Matrix (Fin p.n) (Fin (m p)) ℝ), NoiseIs ps m N M →
        ∃ C, C.PosDef ∧ AreCov ks.length orf (fun c a b i j => ks[c]?.elim 0 fun k => k.cov (toaAt ms a i) (toaAt ms b j)) ms ps N C ∧
          likelihood hash svd method orf ps =
            .ok (some (margLog C (Joint.jm JPsr.n m M ps) (Joint.jv JPsr.n (fun p => p.res - p.delays.reduceOption.sum) ps) +
              (ps.map fun p => p.logprior.sum).sum)) := by
  rcases hs with rfl | ⟨rfl, hc, T, hT⟩ | ⟨hm, hk1⟩
  · exact C115_powerlaws hash hh svd seeded orf ks hu ms h0 hown horf hd rng
  · exact C115_cliques hash hh svd seeded orf ks hu hc T hT ms h0 hown hvec horf (fun k hk => hd k hk (hc k hk)) rng
  · obtain ⟨ps, hps, harr⟩ := plaws_arrays seeded ks hu ms rng
    have hapt := plaws_apt hash hh orf ks hu ms h0 hown horf hd harr
    refine ⟨ps, hps, fun m N M hN => ?_⟩
    obtain ⟨C, hC, h3, h4⟩ := plaws_density orf ks hu ms harr m N M
    refine ⟨C, hC ▸ cov_posDef hash orf ps hapt m N M hN, h3, ?_⟩
    have hone : OneClass ps 0 := by
      refine ⟨?_, ?_, ?_⟩
      · intro p hp g hg _
        obtain ⟨m, hm, gs, φ, rfl, he⟩ := Fourier.forall₂_right harr p hp
        rcases mem_psrs hg with hgm | ⟨b, hb, rfl⟩
        · obtain ⟨c, k, -, -, ha, -⟩ := he.get hgm
          exact ⟨_, _, ha.prior⟩
        · exact hvec m hm b hb
      · intro p hp g hg _
        obtain ⟨m, hm, gs, φ, rfl, he⟩ := Fourier.forall₂_right harr p hp
        rcases mem_psrs hg with hgm | ⟨b, hb, rfl⟩
        · obtain ⟨c, k, -, hk, ha, -⟩ := he.get hgm
          have hc : c < ks.length := by simpa [shapes] using (List.getElem?_eq_some_iff.1 hk).1
          obtain rfl : c = 0 := by omega
          exact .inr ha.cls
        · exact .inl rfl
      · intro p hp
        obtain ⟨m, hm, gs, φ, rfl, he⟩ := Fourier.forall₂_right harr p hp
        simp only [Member.psrs, List.filter_append, own_none, List.nil_append, List.append_nil, filter_class he]
        cases gs[0]? <;> simp
    rw [C107_methods hash svd method hm _ ps hapt 0 hone m N M hN, h4]

theorem forall_choose {α β : Type} {P : α → (Nat → Nat → Bool) → β → Prop} {l : List α} {l' : List β}
    (h : List.Forall₂ (fun x y => ∃ s, P x s y) l l') :
    ∃ same : Nat → Nat → Nat → Bool, ∀ (a : Nat) (x : α) (y : β), l[a]? = some x → l'[a]? = some y → P x (same a) y := by
  have : ∀ a : Nat, ∃ s : Nat → Nat → Bool, ∀ (x : α) (y : β), l[a]? = some x → l'[a]? = some y → P x s y := by
    intro a
    by_cases hx : ∃ x y, l[a]? = some x ∧ l'[a]? = some y
    · obtain ⟨x, y, hx, hy⟩ := hx
      obtain ⟨s, hs⟩ := forall_get h a x y hx hy
      refine ⟨s, fun x' y' hx' hy' => ?_⟩
      rw [hx] at hx'
      rw [hy] at hy'
      cases hx'
      cases hy'
      exact hs
    · exact ⟨fun _ _ => false, fun x y h1 h2 => absurd ⟨x, y, h1, h2⟩ hx⟩
  choose s hs using this
  exact ⟨s, hs⟩

theorem posDef_of {α β : Type} {l : List α} {l' : List β} (f : α → Pos) (g : β → Pos) (h : l'.map g = l.map f) (orf : Pos → Pos → ℝ)
    (hp : (orfMatrix orf fun u : Fin l.length => f l[u]).PosDef) : (orfMatrix orf fun u : Fin l'.length => g l'[u]).PosDef := by
  have hlen : l'.length = l.length := by
    have := congrArg List.length h
    simpa using this
  have hget : ∀ u : Fin l'.length, g l'[u] = f (l[finCongr hlen u]) := by
    intro u
    have := congrArg (fun l => l[u.1]?) h
    simp only [List.getElem?_map] at this
    rw [List.getElem?_eq_getElem u.2, List.getElem?_eq_getElem (by rw [← hlen]; exact u.2)] at this
    exact Option.some.inj this
  have e : (orfMatrix orf fun u : Fin l'.length => g l'[u]) = (orfMatrix orf fun u : Fin l.length => f l[u]).submatrix (finCongr hlen) (finCongr hlen) := by
    ext i j
    simp only [Matrix.submatrix_apply, orfMatrix, Matrix.of_apply]
    rw [hget i, hget j]
  rw [e]
  exact hp.submatrix (finCongr hlen).injective

theorem arrayOf_data (seeded : Int → Bases.Rng) (ks : List (Common × ℝ)) (ms : List Member) : ∀ (rng : Bases.Rng) (ps : List JPsr),
    arrayOf seeded ks ms rng = .ok ps → List.Forall₂ (fun m p => ∃ gs, p = Member.psrs m gs) ms ps := by
  induction ms with
  | nil => intro rng ps h; cases h; exact .nil
  | cons m t ih =>
    intro rng ps h
    rw [arrayOf] at h
    split at h
    · cases h
    · split at h
      · cases h
      · rename_i gs rng' _ _ l h2
        cases h
        exact .cons ⟨_, rfl⟩ (ih _ _ h2)

theorem rect_congr {l l' : List (Nat × Nat × (Nat → Nat → ℝ))}
    (h : List.Forall₂ (fun b b' => b.1 = b'.1 ∧ b.2.1 = b'.2.1 ∧ ∀ i c, c < b.2.1 → b.2.2 i c = b'.2.2 i c) l l') : ∀ i j, rect l i j = rect l' i j := by
  induction h with
  | nil => intro i j; rfl
  | @cons b b' t t' hr _ ih =>
    intro i j
    obtain ⟨h1, h2, h3⟩ := hr
    rw [rect, rect, ← h1, ← h2, ih]
    by_cases hj : j < b.2.1
    · simp only [if_pos hj, h3 i j hj]
    · simp only [if_neg hj]

theorem forall_trans {α β γ : Type} {R : α → β → Prop} {S : β → γ → Prop} {l : List α} {l' : List β} {l'' : List γ} (h : List.Forall₂ R l l') :
    List.Forall₂ S l' l'' → List.Forall₂ (fun x z => ∃ y, R x y ∧ S y z) l l'' := by
  intro h'
  induction h generalizing l'' with
  | nil => cases h'; exact .nil
  | cons hr _ ih =>
    cases h' with
    | cons hs ht => exact .cons ⟨_, hr, hs⟩ (ih ht)

/-- C116: an array of pulsars with measurement noise and a white component by backend, ECORR by backend, a timing model (marginalized
over or not), Fourier processes of their own with power laws, and any number of common processes with power laws and overlaps: the
likelihood is the density of the residuals for the covariance `IsCov` written out, which is positive definite, marginalized over the columns of the timing
models that are to be marginalized over. -/
theorem C116_array (hash : Col ℝ → H) (hh : Function.Injective hash) (svd : ∀ {n : Nat} (M : Matrix (Fin n) (Fin n) ℝ), Svd M)
    (method : Method) (argsort : List ℝ → List Nat) (hsort : ∀ l, Quantize.IsArgsort l (argsort l)) (seeded : Int → Bases.Rng)
    (orf : Nat → Pos → Pos → ℝ) (ks : List Plaw) (hu : ∀ k ∈ ks, k.Usual) (hs : Suits method ks)
    (ds : List (Std × Labels)) (h0 : ks ≠ [] ∨ ∀ d ∈ ds, d.1.procs ≠ [] ∨ d.1.marg = false) (hds : ∀ d ∈ ds, d.1.Ok seeded d.2)
    (horf : ∀ c, c < ks.length → (orfMatrix (orf c) fun u : Fin ds.length => (ds[u]).1.pos).PosDef)
    (hd : ∀ k ∈ ks, k.combine = true → ∀ d ∈ ds, DistinctAt k.args.nmodes k.T d.1.toas) (rng : Bases.Rng) :
    ∃ ps, pta argsort seeded (ks.map Plaw.common) (ds.map Prod.fst) rng = .ok ps ∧
      ∃ same : Nat → Nat → Nat → Bool, (∀ a d, ds[a]? = some d → Epoch d.1.toas d.1.dt d.1.emasks (same a)) ∧
        ∃ C, C.PosDef ∧ IsCov orf ks ds same C ∧ likelihood hash svd method orf ps = .ok (some (margLog C (columns ds) (residuals ds))) := by
  obtain ⟨ms, h1, h2⟩ := own_ok argsort hsort seeded ds hds
  have hlen := h2.length_eq
  have hms : ∀ m ∈ ms, ∃ d ∈ ds, ∃ same, Made seeded d same m := fun m hm => Fourier.forall₂_right h2 m hm
  have hmt : ∀ d same m, Made seeded d same m → m.toas = d.1.toas ∧ m.pos = d.1.pos := by
    rintro d same m h
    obtain ⟨idxs, bs, rfl⟩ := h.build
    exact ⟨rfl, rfl⟩
  obtain ⟨ps, h3, h4⟩ := likelihood_suits hash hh svd method seeded orf ks hu hs ms (h0.imp_right fun h0 m hm => by
      obtain ⟨d, hd, same, h⟩ := hms m hm
      exact h.some (h0 d hd)) (fun m hm => by
      obtain ⟨d, -, same, h⟩ := hms m hm
      exact h.own) (fun m hm => by
      obtain ⟨d, -, same, h⟩ := hms m hm
      exact h.vec) (fun c hc => by
      have e : ms.map Member.pos = ds.map fun d => d.1.pos := map_of h2 _ _ fun d m ⟨same, h⟩ => (hmt d same m h).2
      exact posDef_of (fun d : Std × Labels => d.1.pos) Member.pos e (orf c) (horf c hc)) (fun k hk hc m hm => by
      obtain ⟨d, hdm, same, h⟩ := hms m hm
      rw [(hmt d same m h).1]
      exact hd k hk hc d hdm) rng
  refine ⟨ps, by simp only [pta, h1, h3], ?_⟩
  obtain ⟨same, hsame⟩ := forall_choose h2
  refine ⟨same, fun a d hda => ?_, ?_⟩
  · have hlt : a < ms.length := by rw [← hlen]; exact (List.getElem?_eq_some_iff.1 hda).1
    exact (hsame a d _ hda (List.getElem?_eq_getElem hlt)).epoch
  have hdata := arrayOf_data seeded _ ms rng ps h3
  have hall := forall_trans h2 hdata
  have hnoise : NoiseIs ps (fun p => (colsN p.noise).1) (fun p => covN p.noise) fun p => (colsN p.noise).2 := by
    intro p hp
    obtain ⟨m, hm, gs, rfl⟩ := Fourier.forall₂_right hdata p hp
    obtain ⟨d, -, s, h⟩ := hms m hm
    exact h.noise
  obtain ⟨C, hC, ⟨-, h6⟩, h7⟩ := h4 (fun p => (colsN p.noise).1) (fun p => covN p.noise) (fun p => (colsN p.noise).2) hnoise
  have hnn : ps.map JPsr.n = ds.map fun d => d.1.toas.length := by
    refine map_of hall _ _ ?_
    rintro d p ⟨m, ⟨s, h⟩, gs, rfl⟩
    exact congrArg List.length (hmt d s m h).1
  have hrow : ∀ a, rowStart ps a = size (ds.take a) := by
    intro a
    unfold rowStart size
    rw [List.map_take, List.map_take, hnn]
  have hsz : (ps.map JPsr.n).sum = size ds := by rw [hnn]; rfl
  have hwd : (ps.map fun p => (colsN p.noise).1) = ds.map fun d => d.1.wide := by
    refine map_of hall _ _ ?_
    rintro d p ⟨m, ⟨s, h⟩, gs, rfl⟩
    exact h.wide
  have hprior : (ps.map fun p => p.logprior.sum).sum = 0 := by
    apply List.sum_eq_zero
    intro z hz
    obtain ⟨p, hp, rfl⟩ := List.mem_map.1 hz
    obtain ⟨m, hm, gs, rfl⟩ := Fourier.forall₂_right hdata p hp
    obtain ⟨d, -, s, h⟩ := hms m hm
    obtain ⟨idxs, bs, rfl⟩ := h.build
    rfl
  refine ⟨C.submatrix (Fin.cast hsz.symm) (Fin.cast hsz.symm), hC.submatrix (Fin.cast_injective hsz.symm), ?_, ?_⟩
  · intro a b d d' hda hdb i j hi hj r s hr hs'
    have la : a < ms.length := by rw [← hlen]; exact (List.getElem?_eq_some_iff.1 hda).1
    have lb : b < ms.length := by rw [← hlen]; exact (List.getElem?_eq_some_iff.1 hdb).1
    have hma : ms[a]? = some ms[a] := List.getElem?_eq_getElem la
    have hmb : ms[b]? = some ms[b] := List.getElem?_eq_getElem lb
    have ha := hsame a d _ hda hma
    have hb := hsame b d' _ hdb hmb
    obtain ⟨ta, pa⟩ := hmt _ _ _ ha
    obtain ⟨tb, pb⟩ := hmt _ _ _ hb
    have lp : a < ps.length := by rw [← hdata.length_eq]; exact la
    obtain ⟨gs, hpa⟩ := forall_get hdata a _ _ hma (List.getElem?_eq_getElem lp)
    rw [Matrix.submatrix_apply, h6 a b _ _ _ hma hmb (List.getElem?_eq_getElem lp) i j (by rw [ta]; exact hi) (by rw [tb]; exact hj) _ _
      (by rw [hrow]; exact hr) (by rw [hrow]; exact hs'), pa, pb]
    congr 1
    · by_cases hab : a = b
      · subst hab
        rw [if_pos rfl, if_pos rfl]
        rw [hda] at hdb
        cases hdb
        rw [← ha.cov i j (by rw [ta]; exact hi) (by rw [ta]; exact hj), hpa]
        rfl
      · rw [if_neg hab, if_neg hab]
    · rw [Finset.sum_range]
      apply Finset.sum_congr rfl
      intro c _
      simp only
      rw [List.getElem?_eq_getElem c.2, Option.elim_some, toaAt_eq hma, toaAt_eq hmb, ta, tb]
      rfl
  · rw [h7, hprior, add_zero]
    congr 2
    refine margLog_ext hsz (congrArg List.sum hwd) _ _ _ _ _ _ (fun i j => rfl) (fun i j => ?_) (fun i => ?_)
    · rw [jm_rect]
      refine rect_congr ?_ _ _
      refine List.forall₂_map_left_iff.2 (List.forall₂_map_right_iff.2 (hall.flip.imp ?_))
      rintro p d ⟨m, ⟨s, h⟩, gs, rfl⟩
      exact ⟨congrArg List.length (hmt d s m h).1, h.wide, fun i c hc => h.cols i c (by rw [← h.wide]; exact hc)⟩
    · rw [jv_rect]
      unfold residuals
      congr 1
      refine map_of hall _ _ ?_
      rintro d p ⟨m, ⟨s, h⟩, gs, rfl⟩
      obtain ⟨idxs, bs, rfl⟩ := h.build
      rfl

/-- C116: with one common process with the overlaps of Hellings and Downs, in pulsars of different directions, whatever the method. -/
theorem C116_background (hash : Col ℝ → H) (hh : Function.Injective hash) (svd : ∀ {n : Nat} (M : Matrix (Fin n) (Fin n) ℝ), Svd M)
    (method : Method) (hm : method ≠ .other) (argsort : List ℝ → List Nat) (hsort : ∀ l, Quantize.IsArgsort l (argsort l))
    (seeded : Int → Bases.Rng) (k : Plaw) (hu : k.Usual) (ds : List (Std × Labels)) (hds : ∀ d ∈ ds, d.1.Ok seeded d.2)
    (hunit : ∀ d ∈ ds, Orf.IsUnit3 d.1.pos) (hne : (ds.map fun d => d.1.pos).Nodup)
    (hd : k.combine = true → ∀ d ∈ ds, DistinctAt k.args.nmodes k.T d.1.toas) (rng : Bases.Rng) :
    ∃ ps, pta argsort seeded [k.common] (ds.map Prod.fst) rng = .ok ps ∧
      ∃ same : Nat → Nat → Nat → Bool, (∀ a d, ds[a]? = some d → Epoch d.1.toas d.1.dt d.1.emasks (same a)) ∧
        ∃ C, C.PosDef ∧ IsCov (fun _ => Orf.hdOrf) [k] ds same C ∧
          likelihood hash svd method (fun _ => Orf.hdOrf) ps = .ok (some (margLog C (columns ds) (residuals ds))) := by
  refine C116_array hash hh svd method argsort hsort seeded _ [k] (by simpa using hu) (.inr (.inr ⟨hm, by simp⟩)) ds (.inl (by simp)) hds (fun c _ => ?_)
    (by simpa using hd) rng
  refine (Orf.C71_hd_distinct _ (fun i => hunit _ (List.getElem_mem _)) ?_).1
  intro u v huv
  have hinj := List.nodup_iff_injective_get.1 hne
  have := @hinj ⟨u.1, by simp⟩ ⟨v.1, by simp⟩ (by simpa using huv)
  simpa [Fin.ext_iff] using this

/-! ## An example -/

/-- A process of red noise. -/
noncomputable def exProc : PowerGP := ⟨.red, { nmodes := 1, Tspan := some 4 }, [("", [true, true])], false, [], fun _ => (-14, 13 / 3)⟩

/-- A pulsar with two TOAs in one epoch and a marginalized timing model of one column. -/
noncomputable def exA : Std where
  toas := [0, 1]
  nu := [1400, 1400]
  errs := [1, 2]
  pos := ![1, 0, 0]
  res := fun _ => 1
  white := .t2 (fun _ => 1) fun _ => -6
  masks := [("", [true, true])]
  dt := 2
  emasks := [("", [true, true])]
  log10Ecorr := fun _ => -6
  procs := [exProc]
  rng := fun _ => 0
  tm := ⟨1, Matrix.of fun _ _ => 1⟩
  marg := true

/-- The same in another direction with the timing model as a Gaussian process and no ECORR. -/
noncomputable def exB : Std := { exA with pos := ![0, 1, 0], emasks := [], marg := false }

/-- The labels: all TOAs have the key of the only mask. -/
def exL : Labels := ⟨fun _ => "", fun _ => "", fun _ _ => 4⟩

theorem ex_ok (seeded : Int → Bases.Rng) : exA.Ok seeded exL ∧ exB.Ok seeded exL := by
  have hp : IsPartition 2 [("", [true, true])] := by
    refine ⟨by simp, by simp, fun i hi => ⟨("", [true, true]), ⟨by simp, ?_⟩, fun y hy => by simpa using hy.1⟩⟩
    unfold InMask
    interval_cases i <;> rfl
  have hproc : exProc.Usual [0, 1] (fun _ => 4) ∧ exProc.Distinct seeded [0, 1] [1400, 1400] := by
    refine ⟨⟨⟨rfl, rfl, rfl, rfl⟩, rfl, by simp [exProc], by simp [exProc], by simp [exProc], by simp [exProc], fun km _ => ⟨by norm_num, rfl⟩⟩, ?_⟩
    intro h
    cases h
  have hprocs : ∀ g ∈ [exProc], g.Usual [0, 1] (fun _ => 4) ∧ g.Distinct seeded [0, 1] [1400, 1400] := by
    intro g hg
    obtain rfl : g = exProc := by simpa using hg
    exact hproc
  have hin : Function.Injective (Matrix.of fun (_ : Fin 2) (_ : Fin 1) => (1 : ℝ)).mulVec := by
    intro x y h
    have := congrFun h 0
    funext c
    fin_cases c
    simpa [Matrix.mulVec, dotProduct] using this
  have hm : ∀ km ∈ [("", [true, true])], ∀ i : Nat, InMask km.2 i → "" = km.1 := by
    intro km hkm i _
    obtain rfl : km = ("", [true, true]) := by simpa using hkm
    rfl
  refine ⟨⟨by simp [exA], rfl, rfl, fun _ => one_ne_zero, hp, hm, by norm_num [exA], by simp [exA], by simp [exA], ?_, ?_, hm, hprocs, by simp [exA],
      (fun h => by cases h), fun _ => hin⟩,
    ⟨by simp [exB, exA], rfl, rfl, fun _ => one_ne_zero, hp, hm, by norm_num [exA, exB], by simp [exB], by simp [exB], ?_, by simp [exB],
      by simp [exB], hprocs, by simp [exA, exB], fun _ j j' _ => Subsingleton.elim (α := Fin 1) j j', (fun h => by cases h)⟩⟩
  · intro km hkm km' hkm' _ _ _
    have h1 : km = ("", [true, true]) := by simpa [exA] using hkm
    have h2 : km' = ("", [true, true]) := by simpa [exA] using hkm'
    rw [h1, h2]
  · intro km hkm
    have h1 : km = ("", [true, true]) := by simpa [exA] using hkm
    exact ⟨0, by rw [h1]; rfl⟩
  · intro km hkm
    simp [exB] at hkm

/-- A background in the two pulsars. -/
example (hash : Col ℝ → H) (hh : Function.Injective hash) (svd : ∀ {n : Nat} (M : Matrix (Fin n) (Fin n) ℝ), Svd M)
    (argsort : List ℝ → List Nat) (hsort : ∀ l, Quantize.IsArgsort l (argsort l)) (seeded : Int → Bases.Rng) (rng : Bases.Rng) :
    ∃ ps, pta argsort seeded [(⟨{ nmodes := 1 }, true, -14, 13 / 3, 4⟩ : Plaw).common] [exA, exB] rng = .ok ps ∧
      ∃ same : Nat → Nat → Nat → Bool, (∀ a d, [(exA, exL), (exB, exL)][a]? = some d → Epoch d.1.toas d.1.dt d.1.emasks (same a)) ∧
        ∃ C, C.PosDef ∧ IsCov (fun _ => Orf.hdOrf) [⟨{ nmodes := 1 }, true, -14, 13 / 3, 4⟩] [(exA, exL), (exB, exL)] same C ∧
          likelihood hash svd .cliques (fun _ => Orf.hdOrf) ps =
            .ok (some (margLog C (columns [(exA, exL), (exB, exL)]) (residuals [(exA, exL), (exB, exL)]))) := by
  have mem : ∀ d ∈ [(exA, exL), (exB, exL)], d = (exA, exL) ∨ d = (exB, exL) := by
    intro d hd
    simpa using hd
  refine C116_background hash hh svd .cliques (by simp) argsort hsort seeded ⟨{ nmodes := 1 }, true, -14, 13 / 3, 4⟩
    ⟨⟨rfl, rfl, rfl, rfl⟩, rfl, rfl, by simp, by norm_num⟩ [(exA, exL), (exB, exL)] ?_ ?_ ?_ ?_ rng
  · intro d hd
    rcases mem d hd with rfl | rfl
    · exact (ex_ok seeded).1
    · exact (ex_ok seeded).2
  · intro d hd
    rcases mem d hd with rfl | rfl
    · norm_num [exA, Orf.IsUnit3, Orf.dot, Fin.sum_univ_three]
      rfl
    · norm_num [exB, Orf.IsUnit3, Orf.dot, Fin.sum_univ_three]
      rfl
  · have hne : exA.pos ≠ exB.pos := by
      intro h
      have := congrFun h 0
      simp [exA, exB] at this
    simpa using hne
  · intro _ d hd c c' hc hc' hne
    have h0 : (0 : ℝ) ∈ d.1.toas := by
      rcases mem d hd with rfl | rfl <;> simp [exA, exB]
    refine ⟨0, h0, ?_⟩
    have hc : c < 2 := hc
    have hc' : c' < 2 := hc'
    have : c = 0 ∧ c' = 1 ∨ c = 1 ∧ c' = 0 := by omega
    rcases this with ⟨rfl, rfl⟩ | ⟨rfl, rfl⟩ <;> simp [Bases.row, Bases.harmonics]

end Verif.StdArray
