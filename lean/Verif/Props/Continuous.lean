import Verif.Props.Wide
import Mathlib.Topology.Instances.Matrix
import Mathlib.Analysis.Normed.Ring.Units
import Mathlib.Analysis.SpecialFunctions.Pow.Continuity
import Mathlib.Analysis.SpecialFunctions.Log.Basic

/-!
# Continuity of the likelihood

C129: the log-likelihood is a continuous function of the parameters, and a process whose amplitude goes to zero leaves
the likelihood of the model without that process.
-/

namespace Verif.Limit

open Verif Verif.Likelihood Verif.Noise Verif.Combine Verif.Joined Verif.Standard Verif.Background Verif.StdArray Matrix Filter Topology
open Verif.Orf (Pos orfMatrix)
open Verif.Partition (Svd)

variable {ι : Type}

/-! ## The density -/

theorem inv_continuousAt {n : Nat} {C : Matrix (Fin n) (Fin n) ℝ} (h : C.det ≠ 0) :
    ContinuousAt (Inv.inv : Matrix (Fin n) (Fin n) ℝ → Matrix (Fin n) (Fin n) ℝ) C :=
  continuousAt_matrix_inv C (by simpa using NormedRing.inverse_continuousAt (Units.mk0 C.det h))

theorem margLog_tendsto {n m : Nat} {l : Filter ι} {C : ι → Matrix (Fin n) (Fin n) ℝ} {C0 : Matrix (Fin n) (Fin n) ℝ}
    {M : Matrix (Fin n) (Fin m) ℝ} {r : ι → Fin n → ℝ} {r0 : Fin n → ℝ} (hC0 : C0.PosDef) (hM : Function.Injective M.mulVec)
    (hC : ∀ i j, Tendsto (fun x => C x i j) l (𝓝 (C0 i j))) (hr : ∀ i, Tendsto (fun x => r x i) l (𝓝 (r0 i))) :
    Tendsto (fun x => margLog (C x) M (r x)) l (𝓝 (margLog C0 M r0)) := by
  have hC : Tendsto C l (𝓝 C0) := tendsto_pi_nhds.2 fun i => tendsto_pi_nhds.2 fun j => hC i j
  have hr : Tendsto r l (𝓝 r0) := tendsto_pi_nhds.2 hr
  have hI : Tendsto (fun x => (C x)⁻¹) l (𝓝 C0⁻¹) := (inv_continuousAt hC0.det_pos.ne').tendsto.comp hC
  have hG : Tendsto (fun x => Mᵀ * (C x)⁻¹ * M) l (𝓝 (Mᵀ * C0⁻¹ * M)) := by
    have : Continuous fun A : Matrix (Fin n) (Fin n) ℝ => Mᵀ * A * M := by fun_prop
    exact (this.tendsto _).comp hI
  have hg := gram_posDef C0 M hC0 hM
  have hGI : Tendsto (fun x => (Mᵀ * (C x)⁻¹ * M)⁻¹) l (𝓝 (Mᵀ * C0⁻¹ * M)⁻¹) := (inv_continuousAt hg.det_pos.ne').tendsto.comp hG
  have hP : Tendsto (fun x => projN (C x) M) l (𝓝 (projN C0 M)) := by
    have : Continuous fun A : Matrix (Fin n) (Fin n) ℝ × Matrix (Fin m) (Fin m) ℝ => A.1 - A.1 * M * A.2 * Mᵀ * A.1 := by fun_prop
    exact (this.tendsto (C0⁻¹, (Mᵀ * C0⁻¹ * M)⁻¹)).comp (hI.prodMk_nhds hGI)
  have hQ : Tendsto (fun x => r x ⬝ᵥ (projN (C x) M *ᵥ r x)) l (𝓝 (r0 ⬝ᵥ (projN C0 M *ᵥ r0))) := by
    have : Continuous fun A : (Fin n → ℝ) × Matrix (Fin n) (Fin n) ℝ => A.1 ⬝ᵥ (A.2 *ᵥ A.1) := by fun_prop
    exact (this.tendsto (r0, projN C0 M)).comp (hr.prodMk_nhds hP)
  have hdet : ∀ k : Nat, Continuous fun A : Matrix (Fin k) (Fin k) ℝ => A.det := fun k => continuous_id.matrix_det
  have h1 : Tendsto (fun x => Real.log (C x).det) l (𝓝 (Real.log C0.det)) :=
    (Real.continuousAt_log hC0.det_pos.ne').tendsto.comp (((hdet n).tendsto _).comp hC)
  have h2 : Tendsto (fun x => Real.log (Mᵀ * (C x)⁻¹ * M).det) l (𝓝 (Real.log (Mᵀ * C0⁻¹ * M).det)) :=
    (Real.continuousAt_log hg.det_pos.ne').tendsto.comp (((hdet m).tendsto _).comp hG)
  exact (((hQ.add h1).add h2).add_const _).const_mul _

/-! ## Specification: parameters that tend to others -/

/-- What of a pulsar depends on the parameters: the white noise, ECORR, the processes of its own, the delays. -/
structure Values (d : Std) where
  white : White
  dt : ℝ
  emasks : Dict String Mask
  log10Ecorr : String → ℝ
  procs : List PowerGP
  delays : List (Option (Fin d.toas.length → ℝ))
  rng : Bases.Rng

/-- The pulsar with these values. -/
def set (d : Std) (v : Values d) : Std :=
  { d with white := v.white, dt := v.dt, emasks := v.emasks, log10Ecorr := v.log10Ecorr, procs := v.procs, delays := v.delays, rng := v.rng }

/-- A pulsar, how it is read, and values that depend on something. -/
structure Curve (ι : Type) where
  d : Std
  L : Labels
  v : ι → Values d

/-- The pulsar with the values at `x`. -/
def Curve.at (c : Curve ι) (x : ι) : Std × Labels := (set c.d (c.v x), c.L)

/-- The pulsar without them. -/
def Curve.lim (c : Curve ι) : Std × Labels := (c.d, c.L)

/-- The parameters of the white noise tend to others. -/
inductive WhiteTends (l : Filter ι) : (ι → White) → White → Prop
  | t2 {e q : ι → String → ℝ} {e0 q0 : String → ℝ} : (∀ k, Tendsto (fun x => e x k) l (𝓝 (e0 k))) → (∀ k, Tendsto (fun x => q x k) l (𝓝 (q0 k))) →
      WhiteTends l (fun x => .t2 (e x) (q x)) (.t2 e0 q0)
  | tn {e q : ι → String → ℝ} {e0 q0 : String → ℝ} : (∀ k, Tendsto (fun x => e x k) l (𝓝 (e0 k))) → (∀ k, Tendsto (fun x => q x k) l (𝓝 (q0 k))) →
      WhiteTends l (fun x => .tn (e x) (q x)) (.tn e0 q0)

/-- `ECORR` tends to another value, or goes to zero and is absent from the limit. -/
inductive EcorrTends (l : Filter ι) (d : Std) (v : ι → Values d) : Prop
  | tends : (∀ x, (v x).dt = d.dt) → (∀ x, (v x).emasks = d.emasks) → (∀ k, Tendsto (fun x => (v x).log10Ecorr k) l (𝓝 (d.log10Ecorr k))) →
      EcorrTends l d v
  | gone : d.emasks = [] → (∀ k, Tendsto (fun x => (v x).log10Ecorr k) l atBot) → EcorrTends l d v

/-- Processes whose amplitudes and slopes tend to others, and processes with fixed slopes whose amplitudes go to zero, which are absent from the
limit. -/
inductive ProcsTend (l : Filter ι) : (ι → List PowerGP) → List PowerGP → Prop
  | nil : ProcsTend l (fun _ => []) []
  | tends {g : PowerGP} {hist : ι → List (String → ℝ × ℝ)} {now : ι → String → ℝ × ℝ} {gs : ι → List PowerGP} {gs0 : List PowerGP} :
      (∀ k, Tendsto (fun x => (now x k).1) l (𝓝 (g.now k).1)) → (∀ k, Tendsto (fun x => (now x k).2) l (𝓝 (g.now k).2)) → ProcsTend l gs gs0 →
      ProcsTend l (fun x => { g with hist := hist x, now := now x } :: gs x) (g :: gs0)
  | gone {g : PowerGP} {hist : ι → List (String → ℝ × ℝ)} {now : ι → String → ℝ × ℝ} {gs : ι → List PowerGP} {gs0 : List PowerGP} :
      (∀ k, Tendsto (fun x => (now x k).1) l atBot) → (∀ k x, (now x k).2 = (g.now k).2) → ProcsTend l gs gs0 →
      ProcsTend l (fun x => { g with hist := hist x, now := now x } :: gs x) gs0

/-- The same of the common processes; those that are absent from the limit come last. -/
inductive CommonTend (l : Filter ι) : (ι → List Plaw) → List Plaw → Prop
  | nil : CommonTend l (fun _ => []) []
  | tends {k : Plaw} {A γ : ι → ℝ} {ks : ι → List Plaw} {ks0 : List Plaw} : Tendsto A l (𝓝 k.A) → Tendsto γ l (𝓝 k.γ) → CommonTend l ks ks0 →
      CommonTend l (fun x => { k with A := A x, γ := γ x } :: ks x) (k :: ks0)
  | gone {k : Plaw} {A : ι → ℝ} {ks : ι → List Plaw} : Tendsto A l atBot → CommonTend l ks [] →
      CommonTend l (fun x => { k with A := A x } :: ks x) []

/-- The values of a pulsar tend to those it has. -/
structure Curve.Tends (l : Filter ι) (c : Curve ι) : Prop where
  white : WhiteTends l (fun x => (c.v x).white) c.d.white
  ecorr : EcorrTends l c.d c.v
  procs : ProcsTend l (fun x => (c.v x).procs) c.d.procs
  delays : ∀ i, Tendsto (fun x => ((c.v x).delays.reduceOption.sum) i) l (𝓝 ((c.d.delays.reduceOption.sum) i))

/-! ## The covariances -/

theorem ten_tendsto {l : Filter ι} {f : ι → ℝ} {y : ℝ} (h : Tendsto f l (𝓝 y)) : Tendsto (fun x => (10 : ℝ) ^ f x) l (𝓝 ((10 : ℝ) ^ y)) :=
  (Real.continuous_const_rpow (by norm_num)).continuousAt.tendsto.comp h

theorem ten_gone {l : Filter ι} {f : ι → ℝ} (h : Tendsto f l atBot) : Tendsto (fun x => ((10 : ℝ) ^ f x) ^ 2) l (𝓝 0) := by
  have h1 : Tendsto (fun y : ℝ => (10 : ℝ) ^ y) atBot (𝓝 0) := by
    have e : (fun y : ℝ => (10 : ℝ) ^ y) = fun y => Real.exp (Real.log 10 * y) := by
      funext y
      rw [Real.rpow_def_of_pos (by norm_num)]
    rw [e]
    exact Real.tendsto_exp_atBot.comp (tendsto_id.const_mul_atBot (Real.log_pos (by norm_num)))
  simpa using (h1.comp h).pow 2

theorem white_tends {l : Filter ι} {w : ι → White} {w0 : White} (h : WhiteTends l w w0) (k : String) (σ : ℝ) :
    Tendsto (fun x => (w x).var k σ) l (𝓝 (w0.var k σ)) := by
  cases h with
  | t2 he hq => exact ((he k).pow 2).mul (tendsto_const_nhds.add ((ten_tendsto (hq k)).pow 2))
  | tn he hq => exact (((he k).mul_const σ).pow 2).add ((ten_tendsto (hq k)).pow 2)

theorem plaw_tends {l : Filter ι} {A γ : ι → ℝ} {A0 γ0 : ℝ} (hA : Tendsto A l (𝓝 A0)) (hγ : Tendsto γ l (𝓝 γ0)) {T : ℝ} (hT : 0 < T) (j : Nat) :
    Tendsto (fun x => Fourier.plaw (A x) (γ x) T j) l (𝓝 (Fourier.plaw A0 γ0 T j)) := by
  have hy : 0 < Spectra.yearly := by
    unfold Spectra.yearly
    positivity
  have hf : (0 : ℝ) < ((j : ℝ) + 1) / T := by positivity
  have h1 : Tendsto (fun x => Spectra.yearly ^ (γ x - 3)) l (𝓝 (Spectra.yearly ^ (γ0 - 3))) :=
    (Real.continuous_const_rpow hy.ne').continuousAt.tendsto.comp (hγ.sub_const 3)
  have h2 : Tendsto (fun x => (((j : ℝ) + 1) / T) ^ (-γ x)) l (𝓝 ((((j : ℝ) + 1) / T) ^ (-γ0))) :=
    (Real.continuous_const_rpow hf.ne').continuousAt.tendsto.comp hγ.neg
  exact (((((ten_tendsto hA).pow 2).div_const _).mul h1).mul h2).mul_const _

theorem plaw_gone {l : Filter ι} {A : ι → ℝ} (hA : Tendsto A l atBot) (γ T : ℝ) (j : Nat) :
    Tendsto (fun x => Fourier.plaw (A x) γ T j) l (𝓝 0) := by
  have := ((((ten_gone hA).div_const (12 * Real.pi ^ 2)).mul_const (Spectra.yearly ^ (γ - 3))).mul_const ((((j : ℝ) + 1) / T) ^ (-γ))).mul_const (1 / T)
  simpa [Fourier.plaw] using this

theorem list_tends {α : Type} {l : Filter ι} (ts : List α) {f : ι → α → ℝ} {f0 : α → ℝ} (h : ∀ a ∈ ts, Tendsto (fun x => f x a) l (𝓝 (f0 a))) :
    Tendsto (fun x => (ts.map (f x)).sum) l (𝓝 (ts.map f0).sum) := by
  induction ts with
  | nil => exact tendsto_const_nhds
  | cons a t ih => simpa using (h a (by simp)).add (ih fun b hb => h b (List.mem_cons_of_mem _ hb))

/-- The time spans that a label may give are those of the masks. -/
theorem span_unique {g g' : PowerGP} {toas : List ℝ} {T T' : String → ℝ} (h : g.Usual toas T) (h' : g'.Usual toas T') (hm : g'.masks = g.masks)
    (ha : g'.args = g.args) : ∀ km ∈ g.masks, T' km.1 = T km.1 := by
  intro km hkm
  have h1 := (h.span km hkm).2
  have h2 := (h'.span km (hm ▸ hkm)).2
  rw [ha, h1] at h2
  exact (Except.ok.inj h2).symm

theorem proc_tends {l : Filter ι} {g : PowerGP} {hist : ι → List (String → ℝ × ℝ)} {now : ι → String → ℝ × ℝ} {toas nu : List ℝ}
    (T : PowerGP → String → ℝ) (hu : g.Usual toas (T g)) (hu' : ∀ x, ({ g with hist := hist x, now := now x } : PowerGP).Usual toas
      (T { g with hist := hist x, now := now x })) (hA : ∀ k, Tendsto (fun x => (now x k).1) l (𝓝 (g.now k).1))
    (hγ : ∀ k, Tendsto (fun x => (now x k).2) l (𝓝 (g.now k).2)) (i j : Nat) :
    Tendsto (fun x => ({ g with hist := hist x, now := now x } : PowerGP).cov toas nu (T { g with hist := hist x, now := now x }) i j) l
      (𝓝 (g.cov toas nu (T g) i j)) := by
  unfold PowerGP.cov
  refine list_tends g.masks fun km hkm => ?_
  have hT : ∀ x, T { g with hist := hist x, now := now x } km.1 = T g km.1 := fun x => span_unique hu (hu' x) rfl rfl km hkm
  simp only [hT]
  split
  · refine Tendsto.const_mul _ (tendsto_finsetSum _ fun k _ => (plaw_tends (hA _) (hγ _) (hu.span km hkm).1 k).mul_const _)
  · exact tendsto_const_nhds

theorem proc_gone {l : Filter ι} {g : PowerGP} {hist : ι → List (String → ℝ × ℝ)} {now : ι → String → ℝ × ℝ} {toas nu : List ℝ}
    (T : PowerGP → String → ℝ) (hu' : ∀ x, ({ g with hist := hist x, now := now x } : PowerGP).Usual toas
      (T { g with hist := hist x, now := now x })) (hA : ∀ k, Tendsto (fun x => (now x k).1) l atBot)
    (hγ : ∀ k x, (now x k).2 = (g.now k).2) (i j : Nat) :
    Tendsto (fun x => ({ g with hist := hist x, now := now x } : PowerGP).cov toas nu (T { g with hist := hist x, now := now x }) i j) l (𝓝 0) := by
  unfold PowerGP.cov
  have h0 : 𝓝 (0 : ℝ) = 𝓝 (g.masks.map fun _ => (0 : ℝ)).sum := by simp
  rw [h0]
  refine list_tends g.masks fun km hkm => ?_
  rcases isEmpty_or_nonempty ι with he | ⟨⟨x0⟩⟩
  · rw [Filter.filter_eq_bot_of_isEmpty l]
    exact tendsto_bot
  have hT : ∀ x, T { g with hist := hist x, now := now x } km.1 = T { g with hist := hist x0, now := now x0 } km.1 :=
    fun x => span_unique (hu' x0) (hu' x) rfl rfl km hkm
  simp only [hT, hγ]
  split
  · have h1 : ∀ k : Nat, Tendsto (fun x => Fourier.plaw (now x km.1).1 (g.now km.1).2 (T { g with hist := hist x0, now := now x0 } km.1) k *
        Real.cos (2 * Real.pi * (((k : ℝ) + 1) / T { g with hist := hist x0, now := now x0 } km.1) * (toas.getD i 0 - toas.getD j 0))) l (𝓝 0) := by
      intro k
      have := (plaw_gone (hA km.1) (g.now km.1).2 (T { g with hist := hist x0, now := now x0 } km.1) k).mul_const
        (Real.cos (2 * Real.pi * (((k : ℝ) + 1) / T { g with hist := hist x0, now := now x0 } km.1) * (toas.getD i 0 - toas.getD j 0)))
      rwa [zero_mul] at this
    have h2 : Tendsto (fun x => ∑ k ∈ Finset.range g.args.nmodes, Fourier.plaw (now x km.1).1 (g.now km.1).2
        (T { g with hist := hist x0, now := now x0 } km.1) k * Real.cos (2 * Real.pi * (((k : ℝ) + 1) /
          T { g with hist := hist x0, now := now x0 } km.1) * (toas.getD i 0 - toas.getD j 0))) l
        (𝓝 (∑ k ∈ Finset.range g.args.nmodes, (0 : ℝ))) := tendsto_finsetSum _ fun k _ => h1 k
    simpa using h2.const_mul (g.chrom.factor (nu.getD i 0) * g.chrom.factor (nu.getD j 0))
  · exact (tendsto_const_nhds : Tendsto (fun _ => (0 : ℝ)) l (𝓝 0))

theorem procs_tend {l : Filter ι} {gs : ι → List PowerGP} {gs0 : List PowerGP} (h : ProcsTend l gs gs0) {toas nu : List ℝ}
    (T : PowerGP → String → ℝ) (hu : ∀ g ∈ gs0, g.Usual toas (T g)) (hu' : ∀ x, ∀ g ∈ gs x, g.Usual toas (T g)) (i j : Nat) :
    Tendsto (fun x => ((gs x).map fun g => g.cov toas nu (T g) i j).sum) l (𝓝 (gs0.map fun g => g.cov toas nu (T g) i j).sum) := by
  induction h with
  | nil => exact tendsto_const_nhds
  | tends hA hγ _ ih =>
    simp only [List.map_cons, List.sum_cons]
    exact (proc_tends T (hu _ (by simp)) (fun x => hu' x _ (by simp)) hA hγ i j).add
      (ih (fun g hg => hu g (List.mem_cons_of_mem _ hg)) fun x g hg => hu' x g (List.mem_cons_of_mem _ hg))
  | gone hA hγ _ ih =>
    simp only [List.map_cons, List.sum_cons]
    have := (proc_gone (nu := nu) T (fun x => hu' x _ List.mem_cons_self) hA hγ i j).add (ih hu fun x g hg => hu' x g (List.mem_cons_of_mem _ hg))
    rwa [zero_add] at this

theorem common_tend {l : Filter ι} {ks : ι → List Plaw} {ks0 : List Plaw} (h : CommonTend l ks ks0) (hu : ∀ k ∈ ks0, k.Usual) (t t' : ℝ) :
    ∀ w : Nat → ℝ, Tendsto (fun x => ∑ c : Fin (ks x).length, w c * ((ks x)[c]).cov t t') l (𝓝 (∑ c : Fin ks0.length, w c * (ks0[c]).cov t t')) := by
  induction h with
  | nil => intro w; exact tendsto_const_nhds
  | tends hA hγ _ ih =>
    intro w
    have h1 := ih (fun k hk => hu k (List.mem_cons_of_mem _ hk)) fun c => w (c + 1)
    have hT := (hu _ List.mem_cons_self).span
    simp only [List.length_cons, Fin.sum_univ_succ]
    refine Tendsto.add (Tendsto.const_mul _ ?_) h1
    exact tendsto_finsetSum _ fun n _ => (plaw_tends hA hγ hT n).mul_const _
  | @gone k A ks hA _ ih =>
    intro w
    have h1 := ih hu fun c => w (c + 1)
    have h2 : Tendsto (fun x => w 0 * ({ k with A := A x } : Plaw).cov t t') l (𝓝 0) := by
      have := tendsto_finsetSum (Finset.range k.args.nmodes) fun n _ => (plaw_gone hA k.γ k.T n).mul_const
        (Real.cos (2 * Real.pi * (((n : ℝ) + 1) / k.T) * (t - t')))
      simpa [Plaw.cov] using this.const_mul (w 0)
    have h3 := h2.add h1
    simp only [List.length_cons, Fin.sum_univ_succ]
    simpa using h3

theorem ecorr_tends {l : Filter ι} {d : Std} {v : ι → Values d} (h : EcorrTends l d v) {same0 : Nat → Nat → Bool} {same : ι → Nat → Nat → Bool}
    (h0 : Epoch d.toas d.dt d.emasks same0) (hs : ∀ x, Epoch d.toas (v x).dt (v x).emasks (same x)) (ekey : Nat → String) (i j : Nat) :
    Tendsto (fun x => if same x i j = true then ((10 : ℝ) ^ (v x).log10Ecorr (ekey i)) ^ 2 else 0) l
      (𝓝 (if same0 i j = true then ((10 : ℝ) ^ d.log10Ecorr (ekey i)) ^ 2 else 0)) := by
  cases h with
  | tends h1 h2 h3 =>
    have e : ∀ x, (same x i j = true) = (same0 i j = true) := fun x => propext (by rw [(hs x).exact, h0.exact, h1, h2])
    simp only [e]
    split
    · exact (ten_tendsto (h3 _)).pow 2
    · exact tendsto_const_nhds
  | gone h1 h2 =>
    have e : ¬ same0 i j = true := by
      rw [h0.exact, h1]
      simp
    rw [if_neg e]
    refine squeeze_zero (fun x => ?_) (fun x => ?_) (ten_gone (h2 (ekey i)))
    · split <;> positivity
    · split
      · exact le_rfl
      · positivity

theorem own_tends {seeded : Int → Bases.Rng} {l : Filter ι} {c : Curve ι} (h : c.Tends l) (hok : c.lim.1.Ok seeded c.lim.2)
    (hok' : ∀ x, (c.at x).1.Ok seeded (c.at x).2) {same0 : Nat → Nat → Bool} {same : ι → Nat → Nat → Bool}
    (h0 : Epoch c.lim.1.toas c.lim.1.dt c.lim.1.emasks same0) (hs : ∀ x, Epoch (c.at x).1.toas (c.at x).1.dt (c.at x).1.emasks (same x)) (i j : Nat) :
    Tendsto (fun x => (c.at x).1.own (c.at x).2 (same x) i j) l (𝓝 (c.lim.1.own c.lim.2 same0 i j)) := by
  have h1 : Tendsto (fun x => if i = j then (c.v x).white.var (c.L.key i) (c.d.errs.getD i 0) else 0) l
      (𝓝 (if i = j then c.d.white.var (c.L.key i) (c.d.errs.getD i 0) else 0)) := by
    split
    · exact white_tends h.white _ _
    · exact tendsto_const_nhds
  exact ((h1.add (ecorr_tends h.ecorr h0 hs c.L.ekey i j)).add (procs_tend h.procs (nu := c.d.nu) c.L.T (fun g hg => (hok.procs g hg).1)
    (fun x g hg => ((hok' x).procs g hg).1) i j)).add tendsto_const_nhds

/-! ## The array -/

theorem size_at (cs : List (Curve ι)) (x : ι) : size (cs.map fun c => c.at x) = size (cs.map Curve.lim) := by
  simp only [size, List.map_map]
  rfl

theorem residuals_tend {l : Filter ι} (cs : List (Curve ι)) (h : ∀ c ∈ cs, c.Tends l) : ∀ r : Nat,
    Tendsto (fun x => concatOf ((cs.map fun c => c.at x).map fun d => ⟨d.1.toas.length, d.1.res - d.1.delays.reduceOption.sum⟩) r) l
      (𝓝 (concatOf ((cs.map Curve.lim).map fun d => ⟨d.1.toas.length, d.1.res - d.1.delays.reduceOption.sum⟩) r)) := by
  induction cs with
  | nil => intro r; exact tendsto_const_nhds
  | cons c t ih =>
    intro r
    simp only [List.map_cons, concatOf]
    by_cases hr : r < c.d.toas.length
    · have e1 : ∀ x, (r < (c.at x).1.toas.length) := fun x => hr
      have e2 : r < c.lim.1.toas.length := hr
      rw [dif_pos e2]
      refine Tendsto.congr (fun x => (dif_pos (e1 x)).symm) ?_
      exact ((h c (by simp)).delays ⟨r, hr⟩).const_sub _
    · have e1 : ∀ x, ¬ (r < (c.at x).1.toas.length) := fun x => hr
      have e2 : ¬ r < c.lim.1.toas.length := hr
      rw [dif_neg e2]
      refine Tendsto.congr (fun x => (dif_neg (e1 x)).symm) ?_
      exact ih (fun c hc => h c (List.mem_cons_of_mem _ hc)) (r - c.d.toas.length)

theorem find (ds : List (Std × Labels)) (r : Nat) (hr : r < size ds) : ∃ a d i, ds[a]? = some d ∧ i < d.1.toas.length ∧ r = size (ds.take a) + i := by
  induction ds generalizing r with
  | nil => simp [size] at hr
  | cons d t ih =>
    by_cases h : r < d.1.toas.length
    · exact ⟨0, d, r, rfl, h, by simp [size]⟩
    · have hs : size (d :: t) = d.1.toas.length + size t := by simp [size]
      obtain ⟨a, d', i, h1, h2, h3⟩ := ih (r - d.1.toas.length) (by omega)
      refine ⟨a + 1, d', i, h1, h2, ?_⟩
      have : size ((d :: t).take (a + 1)) = d.1.toas.length + size (t.take a) := by simp [size]
      omega

/-- **C129**: along any change of the parameters for which each of them tends to a value, or the amplitude of ECORR or of a process
goes to zero, the log-likelihood tends to that of the model with those values and without what went to zero, whatever the states of the
random generator. -/
theorem C129_limit {H : Type} [DecidableEq H] (hash : Col ℝ → H) (hh : Function.Injective hash)
    (svd : ∀ {n : Nat} (M : Matrix (Fin n) (Fin n) ℝ), Svd M) (method : Method) (argsort : List ℝ → List Nat)
    (hsort : ∀ l, Quantize.IsArgsort l (argsort l)) (seeded : Int → Bases.Rng) (orf : Nat → Pos → Pos → ℝ) (l : Filter ι)
    (ks : ι → List Plaw) (ks0 : List Plaw) (hk : CommonTend l ks ks0) (hu0 : ∀ k ∈ ks0, k.Usual) (hu : ∀ x, ∀ k ∈ ks x, k.Usual)
    (hs0 : Suits method ks0) (hs : ∀ x, Suits method (ks x)) (cs : List (Curve ι)) (hc : ∀ c ∈ cs, c.Tends l)
    (h0 : ks0 ≠ [] ∨ ∀ c ∈ cs, c.d.procs ≠ [] ∨ c.d.marg = false) (h0' : ∀ x, ks x ≠ [] ∨ ∀ c ∈ cs, (c.v x).procs ≠ [] ∨ c.d.marg = false)
    (hok0 : ∀ c ∈ cs, c.d.Ok seeded c.L) (hok : ∀ c ∈ cs, ∀ x, (c.at x).1.Ok seeded c.L)
    (horf0 : ∀ c, c < ks0.length → (orfMatrix (orf c) fun u : Fin cs.length => (cs[u]).d.pos).PosDef)
    (horf : ∀ x c, c < (ks x).length → (orfMatrix (orf c) fun u : Fin cs.length => (cs[u]).d.pos).PosDef)
    (hd0 : ∀ k ∈ ks0, k.combine = true → ∀ c ∈ cs, DistinctAt k.args.nmodes k.T c.d.toas)
    (hd : ∀ x, ∀ k ∈ ks x, k.combine = true → ∀ c ∈ cs, DistinctAt k.args.nmodes k.T c.d.toas) (rng : ι → Bases.Rng) (rng0 : Bases.Rng) :
    ∃ (ps : ι → List JPsr) (ps0 : List JPsr) (v : ι → ℝ) (v0 : ℝ),
      (∀ x, pta argsort seeded ((ks x).map Plaw.common) (cs.map fun c => (c.at x).1) (rng x) = .ok (ps x) ∧
        likelihood hash svd method orf (ps x) = .ok (some (v x))) ∧
      pta argsort seeded (ks0.map Plaw.common) (cs.map fun c => c.d) rng0 = .ok ps0 ∧ likelihood hash svd method orf ps0 = .ok (some v0) ∧
      Tendsto v l (𝓝 v0) := by
  have hpos : ∀ (f : Curve ι → Std × Labels), (∀ c, (f c).1.pos = c.d.pos) → ∀ k, (orfMatrix (orf k) fun u : Fin cs.length => (cs[u]).d.pos).PosDef →
      (orfMatrix (orf k) fun u : Fin (cs.map f).length => ((cs.map f)[u]).1.pos).PosDef := by
    intro f hf k h
    have e : (orfMatrix (orf k) fun u : Fin (cs.map f).length => ((cs.map f)[u]).1.pos) =
        (orfMatrix (orf k) fun u : Fin cs.length => (cs[u]).d.pos).submatrix (finCongr (List.length_map ..)) (finCongr (List.length_map ..)) := by
      ext u w
      show orf k ((cs.map f)[u.1]).1.pos ((cs.map f)[w.1]).1.pos = orf k (cs[u.1]'_).d.pos (cs[w.1]'_).d.pos
      simp only [List.getElem_map, hf]
      rfl
    rw [e]
    exact h.submatrix (finCongr (List.length_map ..)).injective
  obtain ⟨ps0, p1, same0, p2, C0, p3, p4, p5⟩ := C116_array hash hh svd method argsort hsort seeded orf ks0 hu0 hs0 (cs.map Curve.lim)
    (h0.imp_right fun h d hd => by obtain ⟨c, hc, rfl⟩ := List.mem_map.1 hd; exact h c hc)
    (fun d hd => by obtain ⟨c, hc, rfl⟩ := List.mem_map.1 hd; exact hok0 c hc) (fun k hk => hpos Curve.lim (fun _ => rfl) k (horf0 k hk))
    (fun k hk hkc d hd => by obtain ⟨c, hc, rfl⟩ := List.mem_map.1 hd; exact hd0 k hk hkc c hc) rng0
  have key := fun x => C116_array hash hh svd method argsort hsort seeded orf (ks x) (hu x) (hs x) (cs.map fun c => c.at x)
    ((h0' x).imp_right fun h d hd => by obtain ⟨c, hc, rfl⟩ := List.mem_map.1 hd; exact h c hc)
    (fun d hd => by obtain ⟨c, hc, rfl⟩ := List.mem_map.1 hd; exact hok c hc x) (fun k hk => hpos (fun c => c.at x) (fun _ => rfl) k (horf x k hk))
    (fun k hk hkc d hdm => by obtain ⟨c, hc, rfl⟩ := List.mem_map.1 hdm; exact hd x k hk hkc c hc) (rng x)
  choose ps q1 same q2 C q3 q4 q5 using key
  refine ⟨ps, ps0, _, _, fun x => ⟨?_, q5 x⟩, ?_, p5, ?_⟩
  · have := q1 x
    rwa [List.map_map] at this
  · have := p1
    rwa [List.map_map] at this
  have hsz := size_at cs
  have hw : ∀ x, ((cs.map fun c => c.at x).map fun d => d.1.wide).sum = ((cs.map Curve.lim).map fun d => d.1.wide).sum := by
    intro x
    simp only [List.map_map]
    rfl
  have hM := Wide.columns_injective (seeded := seeded) (ds := cs.map Curve.lim) fun d hd => by
    obtain ⟨c, hc, rfl⟩ := List.mem_map.1 hd; exact hok0 c hc
  have e : ∀ x, margLog (C x) (columns (cs.map fun c => c.at x)) (residuals (cs.map fun c => c.at x)) =
      margLog (Matrix.of fun i j => C x (Fin.cast (hsz x).symm i) (Fin.cast (hsz x).symm j)) (columns (cs.map Curve.lim))
        fun i => residuals (cs.map fun c => c.at x) (Fin.cast (hsz x).symm i) := by
    intro x
    refine margLog_ext (hsz x) (hw x) _ _ _ _ _ _ (fun i j => rfl) (fun i j => ?_) fun i => rfl
    simp only [StdArray.columns, of_apply, List.map_map]
    rfl
  simp only [e]
  refine margLog_tendsto p3 hM (fun i j => ?_) fun i => residuals_tend cs hc i
  obtain ⟨a, d, i', h1, h2, h3⟩ := find _ i.1 i.2
  obtain ⟨b, d', j', h1', h2', h3'⟩ := find _ j.1 j.2
  rw [List.getElem?_map] at h1 h1'
  obtain ⟨c, hca, rfl⟩ := Option.map_eq_some_iff.1 h1
  obtain ⟨c', hcb, rfl⟩ := Option.map_eq_some_iff.1 h1'
  have hcm : c ∈ cs := List.mem_of_getElem? hca
  have htake : ∀ x a, size ((cs.map fun c => c.at x).take a) = size ((cs.map Curve.lim).take a) := by
    intro x a
    rw [← List.map_take, ← List.map_take, size_at]
  rw [p4 a b c.lim c'.lim (by simp [hca]) (by simp [hcb]) i' j' h2 h2' i j h3 h3']
  have e2 : ∀ x, (Matrix.of fun i j => C x (Fin.cast (hsz x).symm i) (Fin.cast (hsz x).symm j)) i j =
      (if a = b then (c.at x).1.own (c.at x).2 (same x a) i' j' else 0) +
        ∑ k : Fin (ks x).length, orf k c.d.pos c'.d.pos * ((ks x)[k]).cov (c.d.toas.getD i' 0) (c'.d.toas.getD j' 0) := by
    intro x
    exact q4 x a b (c.at x) (c'.at x) (by simp [hca]) (by simp [hcb]) i' j' h2 h2' _ _ (by rw [htake]; exact h3) (by rw [htake]; exact h3')
  simp only [e2]
  refine Tendsto.add ?_ (common_tend hk hu0 _ _ fun k => orf k c.d.pos c'.d.pos)
  split
  · refine own_tends (hc c hcm) (hok0 c hcm) (hok c hcm) (p2 a c.lim (by simp [hca])) (fun x => q2 x a (c.at x) (by simp [hca])) i' j'
  · exact tendsto_const_nhds

/-! ## Continuous parameters -/

/-- The curve seen from the pulsar with the values at `x₀`. -/
def Curve.seen (c : Curve ι) (x₀ : ι) : Curve ι where
  d := set c.d (c.v x₀)
  L := c.L
  v x := ⟨(c.v x).white, (c.v x).dt, (c.v x).emasks, (c.v x).log10Ecorr, (c.v x).procs, (c.v x).delays, (c.v x).rng⟩

/-- C129: with parameters that depend continuously on `x` the log-likelihood is a continuous function of `x`. -/
theorem C129_continuous {H : Type} [DecidableEq H] (hash : Col ℝ → H) (hh : Function.Injective hash)
    (svd : ∀ {n : Nat} (M : Matrix (Fin n) (Fin n) ℝ), Svd M) (method : Method) (argsort : List ℝ → List Nat)
    (hsort : ∀ l, Quantize.IsArgsort l (argsort l)) (seeded : Int → Bases.Rng) (orf : Nat → Pos → Pos → ℝ) [TopologicalSpace ι]
    (ks : ι → List Plaw) (hk : ∀ x₀, CommonTend (𝓝 x₀) ks (ks x₀)) (hu : ∀ x, ∀ k ∈ ks x, k.Usual) (hs : ∀ x, Suits method (ks x))
    (cs : List (Curve ι)) (hc : ∀ x₀, ∀ c ∈ cs, (c.seen x₀).Tends (𝓝 x₀))
    (h0 : ∀ x, ks x ≠ [] ∨ ∀ c ∈ cs, (c.v x).procs ≠ [] ∨ c.d.marg = false) (hok : ∀ c ∈ cs, ∀ x, (c.at x).1.Ok seeded c.L)
    (horf : ∀ x c, c < (ks x).length → (orfMatrix (orf c) fun u : Fin cs.length => (cs[u]).d.pos).PosDef)
    (hd : ∀ x, ∀ k ∈ ks x, k.combine = true → ∀ c ∈ cs, DistinctAt k.args.nmodes k.T c.d.toas) (rng : ι → Bases.Rng) :
    ∃ (ps : ι → List JPsr) (v : ι → ℝ),
      (∀ x, pta argsort seeded ((ks x).map Plaw.common) (cs.map fun c => (c.at x).1) (rng x) = .ok (ps x) ∧
        likelihood hash svd method orf (ps x) = .ok (some (v x))) ∧ Continuous v := by
  have key := fun x₀ : ι => C129_limit hash hh svd method argsort hsort seeded orf (𝓝 x₀) ks (ks x₀) (hk x₀) (hu x₀) hu (hs x₀) hs
    (cs.map fun c => c.seen x₀) (fun c hm => by obtain ⟨c, hm', rfl⟩ := List.mem_map.1 hm; exact hc x₀ c hm')
    ((h0 x₀).imp_right fun h c hm => by obtain ⟨c, hm', rfl⟩ := List.mem_map.1 hm; exact h c hm')
    (fun x => (h0 x).imp_right fun h c hm => by obtain ⟨c, hm', rfl⟩ := List.mem_map.1 hm; exact h c hm')
    (fun c hm => by obtain ⟨c, hm', rfl⟩ := List.mem_map.1 hm; exact hok c hm' x₀)
    (fun c hm x => by obtain ⟨c, hm', rfl⟩ := List.mem_map.1 hm; exact hok c hm' x)
    (fun k hk => posDef_of (fun c : Curve ι => c.d.pos) (fun c : Curve ι => c.d.pos) (by simp only [List.map_map]; rfl) (orf k) (horf x₀ k hk))
    (fun x k hk => posDef_of (fun c : Curve ι => c.d.pos) (fun c : Curve ι => c.d.pos) (by simp only [List.map_map]; rfl) (orf k) (horf x k hk))
    (fun k hk hkc c hm => by obtain ⟨c, hm', rfl⟩ := List.mem_map.1 hm; exact hd x₀ k hk hkc c hm')
    (fun x k hk hkc c hm => by obtain ⟨c, hm', rfl⟩ := List.mem_map.1 hm; exact hd x k hk hkc c hm') rng (rng x₀)
  simp only [List.map_map] at key
  choose ps ps0 v v0 h1 h2 h3 h4 using key
  have e : ∀ x₀, v0 x₀ = v x₀ x₀ := by
    intro x₀
    have a := (h1 x₀ x₀).1
    have b := h2 x₀
    have hps : ps0 x₀ = ps x₀ x₀ := Except.ok.inj (b.symm.trans a)
    have c := (h1 x₀ x₀).2
    rw [← hps, h3 x₀] at c
    simpa using c
  have e' : ∀ x₀ x, v x₀ x = v x x := by
    intro x₀ x
    have hps : ps x₀ x = ps x x := Except.ok.inj ((h1 x₀ x).1.symm.trans (h1 x x).1)
    have c := (h1 x₀ x).2
    rw [hps, (h1 x x).2] at c
    simpa using c.symm
  refine ⟨fun x => ps x x, fun x => v x x, fun x => h1 x x, continuous_iff_continuousAt.2 fun x₀ => ?_⟩
  have := h4 x₀
  rw [e] at this
  exact Tendsto.congr (e' x₀) this

/-! ## A background that vanishes -/

theorem white_const (l : Filter ι) (w : White) : WhiteTends l (fun _ => w) w := by
  cases w with
  | t2 e q => exact .t2 (fun _ => tendsto_const_nhds) fun _ => tendsto_const_nhds
  | tn e q => exact .tn (fun _ => tendsto_const_nhds) fun _ => tendsto_const_nhds

theorem procs_const (l : Filter ι) (gs : List PowerGP) : ProcsTend l (fun _ => gs) gs := by
  induction gs with
  | nil => exact .nil
  | cons g t ih =>
    exact ProcsTend.tends (g := g) (hist := fun _ => g.hist) (now := fun _ => g.now) (fun _ => tendsto_const_nhds) (fun _ => tendsto_const_nhds) ih

/-- A pulsar whose parameters stay. -/
def still (ι : Type) (d : Std × Labels) : Curve ι :=
  ⟨d.1, d.2, fun _ => ⟨d.1.white, d.1.dt, d.1.emasks, d.1.log10Ecorr, d.1.procs, d.1.delays, d.1.rng⟩⟩

theorem still_tends (l : Filter ι) (d : Std × Labels) : (still ι d).Tends l where
  white := white_const l _
  ecorr := .tends (fun _ => rfl) (fun _ => rfl) fun _ => tendsto_const_nhds
  procs := procs_const l _
  delays _ := tendsto_const_nhds

/-- C129: as the amplitude of a background of Hellings and Downs goes to zero the log-likelihood tends to that of the array without it,
whatever the method. -/
theorem C129_background {H : Type} [DecidableEq H] (hash : Col ℝ → H) (hh : Function.Injective hash)
    (svd : ∀ {n : Nat} (M : Matrix (Fin n) (Fin n) ℝ), Svd M) (method : Method) (hm : method ≠ .other) (argsort : List ℝ → List Nat)
    (hsort : ∀ l, Quantize.IsArgsort l (argsort l)) (seeded : Int → Bases.Rng) (k : Plaw) (hu : k.Usual) (ds : List (Std × Labels))
    (h0 : ∀ d ∈ ds, d.1.procs ≠ [] ∨ d.1.marg = false) (hds : ∀ d ∈ ds, d.1.Ok seeded d.2) (hunit : ∀ d ∈ ds, Orf.IsUnit3 d.1.pos)
    (hne : (ds.map fun d => d.1.pos).Nodup) (hd : k.combine = true → ∀ d ∈ ds, DistinctAt k.args.nmodes k.T d.1.toas) (rng : ℝ → Bases.Rng)
    (rng0 : Bases.Rng) :
    ∃ (ps : ℝ → List JPsr) (ps0 : List JPsr) (v : ℝ → ℝ) (v0 : ℝ),
      (∀ A, pta argsort seeded [({ k with A := A } : Plaw).common] (ds.map Prod.fst) (rng A) = .ok (ps A) ∧
        likelihood hash svd method (fun _ => Orf.hdOrf) (ps A) = .ok (some (v A))) ∧
      pta argsort seeded [] (ds.map Prod.fst) rng0 = .ok ps0 ∧ likelihood hash svd method (fun _ => Orf.hdOrf) ps0 = .ok (some v0) ∧
      Tendsto v atBot (𝓝 v0) := by
  have hpd : (orfMatrix Orf.hdOrf fun u : Fin (ds.map (still ℝ)).length => ((ds.map (still ℝ))[u]).d.pos).PosDef := by
    refine posDef_of (l := ds) (fun d => d.1.pos) (fun c : Curve ℝ => c.d.pos) (by simp only [List.map_map]; rfl) Orf.hdOrf ?_
    refine (Orf.C71_hd_distinct _ (fun i => hunit _ (List.getElem_mem _)) ?_).1
    intro u v huv
    have hinj := List.nodup_iff_injective_get.1 hne
    have := @hinj ⟨u.1, by simp⟩ ⟨v.1, by simp⟩ (by simpa using huv)
    simpa [Fin.ext_iff] using this
  have mem : ∀ {P : Curve ℝ → Prop}, (∀ d ∈ ds, P (still ℝ d)) → ∀ c ∈ ds.map (still ℝ), P c := by
    intro P h c hc
    obtain ⟨d, hd, rfl⟩ := List.mem_map.1 hc
    exact h d hd
  have := C129_limit hash hh svd method argsort hsort seeded (fun _ => Orf.hdOrf) (atBot : Filter ℝ) (fun A => [{ k with A := A }]) []
    (.gone (k := k) tendsto_id .nil) (by simp) (fun A k' hk => by
      obtain rfl : k' = { k with A := A } := by simpa using hk
      exact ⟨hu.plain, hu.pshift, hu.pseed, hu.modes, hu.span⟩)
    (.inr (.inr ⟨hm, by simp⟩)) (fun _ => .inr (.inr ⟨hm, by simp⟩)) (ds.map (still ℝ)) (mem fun d _ => still_tends _ d) (.inr (mem h0))
    (fun _ => .inl (by simp)) (mem hds) (mem fun d hd _ => hds d hd) (by simp) (fun _ _ _ => hpd) (by simp)
    (fun A k' hk hkc => by
      obtain rfl : k' = { k with A := A } := by simpa using hk
      exact mem fun d hdm => hd hkc d hdm) rng rng0
  simp only [List.map_map] at this
  exact this

/-! ## Cases meeting the hypotheses -/

/-- A pulsar whose EFAC is `exp x`, and whose EQUAD, ECORR and red-noise amplitude are `x` in log10. -/
noncomputable def exCurve : Curve ℝ :=
  ⟨StdArray.exA, exL, fun x => ⟨.t2 (fun _ => Real.exp x) fun _ => x, 2, [("", [true, true])], fun _ => x,
    [{ exProc with now := fun _ => (x, 13 / 3) }], [], fun _ => 0⟩⟩

theorem exCurve_ok (seeded : Int → Bases.Rng) (x : ℝ) : (exCurve.at x).1.Ok seeded exL := by
  have h := (ex_ok seeded).1
  refine ⟨h.toas, h.nu, h.errs, fun _ => (Real.exp_pos x).ne', h.masks, h.key, h.dt, h.ekeys, h.elen, h.edisj, h.esome, h.ekey, ?_, h.cols,
    h.distinct, h.indep⟩
  intro g hg
  obtain rfl : g = { exProc with now := fun _ => (x, 13 / 3) } := by simpa [exCurve, Curve.at, set] using hg
  have hp := h.procs exProc (by simp [StdArray.exA])
  exact ⟨⟨hp.1.plain, hp.1.seed, hp.1.modes, hp.1.some, hp.1.keys, hp.1.len, hp.1.span⟩, hp.2⟩

theorem one_distinct : DistinctAt 1 4 StdArray.exA.toas := by
  intro c c' hc hc' hne
  refine ⟨0, by simp [StdArray.exA], ?_⟩
  have : c = 0 ∧ c' = 1 ∨ c = 1 ∧ c' = 0 := by omega
  rcases this with ⟨rfl, rfl⟩ | ⟨rfl, rfl⟩ <;> simp [Bases.row, Bases.harmonics]

/-- The log-likelihood of the pulsar with a common process of amplitude `x` and slope `3 + x` is continuous in `x`. -/
example {H : Type} [DecidableEq H] (hash : Col ℝ → H) (hh : Function.Injective hash) (svd : ∀ {n : Nat} (M : Matrix (Fin n) (Fin n) ℝ), Svd M)
    (argsort : List ℝ → List Nat) (hsort : ∀ l, Quantize.IsArgsort l (argsort l)) (seeded : Int → Bases.Rng) (rng : ℝ → Bases.Rng) :
    ∃ (ps : ℝ → List JPsr) (v : ℝ → ℝ), (∀ x, pta argsort seeded [(⟨{ nmodes := 1 }, true, x, 3 + x, 4⟩ : Plaw).common] [(exCurve.at x).1] (rng x) =
      .ok (ps x) ∧ likelihood hash svd .cliques (fun _ _ _ => 1) (ps x) = .ok (some (v x))) ∧ Continuous v := by
  refine C129_continuous hash hh svd .cliques argsort hsort seeded (fun _ _ _ => 1) (fun x => [⟨{ nmodes := 1 }, true, x, 3 + x, 4⟩])
    (fun x₀ => ?_) ?_ (fun _ => .inr (.inr ⟨by simp, by simp⟩)) [exCurve] ?_ (fun _ => .inl (by simp)) ?_ ?_ ?_ rng
  · exact CommonTend.tends (k := ⟨{ nmodes := 1 }, true, x₀, 3 + x₀, 4⟩) (A := fun x => x) (γ := fun x => 3 + x) tendsto_id
      (tendsto_id.const_add 3) .nil
  · intro x k hk
    obtain rfl : k = ⟨{ nmodes := 1 }, true, x, 3 + x, 4⟩ := by simpa using hk
    exact ⟨⟨rfl, rfl, rfl, rfl⟩, rfl, rfl, by simp, by norm_num⟩
  · intro x₀ c hc
    obtain rfl : c = exCurve := by simpa using hc
    exact ⟨.t2 (fun _ => Real.continuous_exp.tendsto x₀) fun _ => tendsto_id, .tends (fun _ => rfl) (fun _ => rfl) fun _ => tendsto_id,
      ProcsTend.tends (g := { exProc with now := fun _ => (x₀, 13 / 3) }) (hist := fun _ => []) (now := fun x _ => (x, 13 / 3))
        (fun _ => tendsto_id) (fun _ => tendsto_const_nhds) .nil, fun _ => tendsto_const_nhds⟩
  · intro c hc x
    obtain rfl : c = exCurve := by simpa using hc
    exact exCurve_ok seeded x
  · intro x c hc
    have : (orfMatrix (fun _ _ => 1) fun u : Fin [exCurve].length => ([exCurve][u]).d.pos) = 1 := by
      ext i j
      obtain rfl : i = j := Subsingleton.elim (α := Fin 1) i j
      rw [Matrix.one_apply_eq]
      rfl
    rw [this]
    exact PosDef.one
  · intro x k hk _ c hc
    obtain rfl : k = ⟨{ nmodes := 1 }, true, x, 3 + x, 4⟩ := by simpa using hk
    obtain rfl : c = exCurve := by simpa using hc
    exact one_distinct

/-- Two pulsars with a background that vanishes. -/
example {H : Type} [DecidableEq H] (hash : Col ℝ → H) (hh : Function.Injective hash) (svd : ∀ {n : Nat} (M : Matrix (Fin n) (Fin n) ℝ), Svd M)
    (argsort : List ℝ → List Nat) (hsort : ∀ l, Quantize.IsArgsort l (argsort l)) (seeded : Int → Bases.Rng) (rng : ℝ → Bases.Rng)
    (rng0 : Bases.Rng) :
    ∃ (ps : ℝ → List JPsr) (ps0 : List JPsr) (v : ℝ → ℝ) (v0 : ℝ),
      (∀ A, pta argsort seeded [(⟨{ nmodes := 1 }, true, A, 13 / 3, 4⟩ : Plaw).common] [StdArray.exA, StdArray.exB] (rng A) = .ok (ps A) ∧
        likelihood hash svd .partition (fun _ => Orf.hdOrf) (ps A) = .ok (some (v A))) ∧
      pta argsort seeded [] [StdArray.exA, StdArray.exB] rng0 = .ok ps0 ∧ likelihood hash svd .partition (fun _ => Orf.hdOrf) ps0 = .ok (some v0) ∧
      Tendsto v atBot (𝓝 v0) := by
  have mem : ∀ {P : Std × Labels → Prop}, P (StdArray.exA, exL) → P (StdArray.exB, exL) → ∀ d ∈ [(StdArray.exA, exL), (StdArray.exB, exL)], P d := by
    intro P h1 h2 d hd
    have : d = (StdArray.exA, exL) ∨ d = (StdArray.exB, exL) := by simpa using hd
    rcases this with rfl | rfl
    · exact h1
    · exact h2
  refine C129_background hash hh svd .partition (by simp) argsort hsort seeded ⟨{ nmodes := 1 }, true, -14, 13 / 3, 4⟩
    ⟨⟨rfl, rfl, rfl, rfl⟩, rfl, rfl, by simp, by norm_num⟩ [(StdArray.exA, exL), (StdArray.exB, exL)]
    (mem (.inl (by simp [StdArray.exA])) (.inr rfl)) (mem (ex_ok seeded).1 (ex_ok seeded).2) (mem ?_ ?_) ?_ (fun _ => mem one_distinct one_distinct) rng rng0
  · norm_num [StdArray.exA, Orf.IsUnit3, Orf.dot, Fin.sum_univ_three]
    rfl
  · norm_num [StdArray.exB, Orf.IsUnit3, Orf.dot, Fin.sum_univ_three]
    rfl
  · have hne : StdArray.exA.pos ≠ StdArray.exB.pos := by
      intro h
      have := congrFun h 0
      simp [StdArray.exA, StdArray.exB] at this
    simpa using hne

end Verif.Limit
