import Verif.Props.Continuous

/-!
# Units of the residuals

C132: residuals, uncertainties and amplitudes given in another unit change the log-likelihood by a constant.
-/

namespace Verif.Units

open Verif Verif.Likelihood Verif.Noise Verif.Combine Verif.Joined Verif.Standard Verif.Background Verif.StdArray Verif.Limit Matrix
open Verif.Orf (Pos orfMatrix)
open Verif.Partition (Svd)

/-! ## The density -/

theorem margLog_scale {n m : Nat} {C : Matrix (Fin n) (Fin n) ℝ} {M : Matrix (Fin n) (Fin m) ℝ} (hC : C.PosDef)
    (hM : Function.Injective M.mulVec) (r : Fin n → ℝ) {s : ℝ} (hs : 0 < s) :
    margLog (s ^ 2 • C) M (s • r) = margLog C M r - ((n : ℝ) - m) * Real.log s := by
  have h2 : s ^ 2 ≠ 0 := by positivity
  have hG := gram_posDef C M hC hM
  have hinv : (s ^ 2 • C)⁻¹ = (s ^ 2)⁻¹ • C⁻¹ := by
    refine inv_eq_right_inv ?_
    rw [smul_mul_smul_comm, mul_inv_cancel₀ h2, one_smul, mul_nonsing_inv _ (isUnit_iff_ne_zero.2 hC.det_pos.ne')]
  have hgram : Mᵀ * (s ^ 2 • C)⁻¹ * M = (s ^ 2)⁻¹ • (Mᵀ * C⁻¹ * M) := by
    rw [hinv, Matrix.mul_smul, Matrix.smul_mul]
  have hginv : ((s ^ 2)⁻¹ • (Mᵀ * C⁻¹ * M))⁻¹ = s ^ 2 • (Mᵀ * C⁻¹ * M)⁻¹ := by
    refine inv_eq_right_inv ?_
    rw [smul_mul_smul_comm, inv_mul_cancel₀ h2, one_smul, mul_nonsing_inv _ (isUnit_iff_ne_zero.2 hG.det_pos.ne')]
  have hproj : projN (s ^ 2 • C) M = (s ^ 2)⁻¹ • projN C M := by
    simp only [projN]
    rw [hgram, hginv, hinv]
    simp only [Matrix.mul_smul, Matrix.smul_mul, smul_smul, smul_sub]
    congr 2
    field_simp
  have hquad : (s • r) ⬝ᵥ (projN (s ^ 2 • C) M *ᵥ (s • r)) = r ⬝ᵥ (projN C M *ᵥ r) := by
    rw [hproj]
    simp only [smul_mulVec, mulVec_smul, dotProduct_smul, smul_dotProduct, smul_eq_mul]
    field_simp
  have hd1 : Real.log (s ^ 2 • C).det = 2 * n * Real.log s + Real.log C.det := by
    rw [det_smul, Fintype.card_fin, Real.log_mul (pow_ne_zero _ h2) hC.det_pos.ne', Real.log_pow, Real.log_pow]
    push_cast
    ring
  have hd2 : Real.log ((s ^ 2)⁻¹ • (Mᵀ * C⁻¹ * M)).det = -(2 * m * Real.log s) + Real.log (Mᵀ * C⁻¹ * M).det := by
    rw [det_smul, Fintype.card_fin, Real.log_mul (pow_ne_zero _ (inv_ne_zero h2)) hG.det_pos.ne', Real.log_pow, Real.log_inv, Real.log_pow]
    push_cast
    ring
  simp only [margLog]
  rw [hquad, hgram, hd1, hd2]
  ring

/-! ## Another unit -/

/-- The logarithm of `10 ^ x` times `s`. -/
noncomputable def shift (s x : ℝ) : ℝ := x + Real.logb 10 s

theorem ten_shift {s : ℝ} (hs : 0 < s) (x : ℝ) : (10 : ℝ) ^ shift s x = 10 ^ x * s := by
  rw [shift, Real.rpow_add (by norm_num), Real.rpow_logb (by norm_num) (by norm_num) hs]

/-- The additional white noise in the other unit; error scales have none. -/
noncomputable def white (s : ℝ) : White → White
  | .t2 efac q => .t2 efac fun k => shift s (q k)
  | .tn efac q => .tn efac fun k => shift s (q k)

/-- A process with its amplitude in the other unit. -/
noncomputable def proc (s : ℝ) (g : PowerGP) : PowerGP := { g with now := fun k => (shift s (g.now k).1, (g.now k).2) }

/-- A common process with its amplitude in the other unit. -/
noncomputable def common (s : ℝ) (k : Plaw) : Plaw := { k with A := shift s k.A }

/-- A pulsar with its residuals, delays, uncertainties and amplitudes in the other unit. -/
noncomputable def std (s : ℝ) (d : Std) : Std :=
  { d with
    errs := d.errs.map (s * ·)
    res := s • d.res
    delays := d.delays.map (Option.map (s • ·))
    white := white s d.white
    log10Ecorr := fun k => shift s (d.log10Ecorr k)
    procs := d.procs.map (proc s) }

/-- The labels: the time span of a process does not depend on the unit. -/
noncomputable def labels (s : ℝ) (L : Labels) : Labels :=
  { L with T := fun g => L.T { g with now := fun k => ((g.now k).1 - Real.logb 10 s, (g.now k).2) } }

theorem labels_proc (s : ℝ) (L : Labels) (g : PowerGP) : (labels s L).T (proc s g) = L.T g := by
  unfold labels proc shift
  simp

/-- Pulsar and labels. -/
noncomputable def both (s : ℝ) (d : Std × Labels) : Std × Labels := (std s d.1, labels s d.2)

theorem std_ok {s : ℝ} {d : Std} {seeded : Int → Bases.Rng} {L : Labels} (h : d.Ok seeded L) : (std s d).Ok seeded (labels s L) where
  toas := h.toas
  nu := h.nu
  errs := by simpa [std] using h.errs
  white := by
    have := h.white
    show (Units.white s d.white).Pos
    cases e : d.white with
    | t2 efac q => rw [e] at this; exact this
    | tn efac q => trivial
  masks := h.masks
  key := h.key
  dt := h.dt
  ekeys := h.ekeys
  elen := h.elen
  edisj := h.edisj
  esome := h.esome
  ekey := h.ekey
  procs := by
    intro g' hg'
    obtain ⟨g, hg, rfl⟩ := List.mem_map.1 hg'
    rw [labels_proc]
    obtain ⟨h1, h2⟩ := h.procs g hg
    exact ⟨⟨h1.plain, h1.seed, h1.modes, h1.some, h1.keys, h1.len, h1.span⟩, h2⟩
  cols := h.cols
  distinct := h.distinct
  indep := h.indep

theorem white_var {s : ℝ} (hs : 0 < s) (w : White) (k : String) (σ : ℝ) : (white s w).var k (s * σ) = s ^ 2 * w.var k σ := by
  cases w with
  | t2 efac q => simp only [white, White.var, ten_shift hs]; ring
  | tn efac q => simp only [white, White.var, ten_shift hs]; ring

theorem plaw_scale {s : ℝ} (hs : 0 < s) (A γ T : ℝ) (j : Nat) : Fourier.plaw (shift s A) γ T j = s ^ 2 * Fourier.plaw A γ T j := by
  simp only [Fourier.plaw, ten_shift hs]
  ring

theorem proc_cov {s : ℝ} (hs : 0 < s) (g : PowerGP) (toas nu : List ℝ) (T : String → ℝ) (i j : Nat) :
    (proc s g).cov toas nu T i j = s ^ 2 * g.cov toas nu T i j := by
  unfold PowerGP.cov
  rw [← List.sum_map_mul_left]
  congr 1
  refine List.map_congr_left fun km _ => ?_
  show (if InMask km.2 i ∧ InMask km.2 j then _ else (0 : ℝ)) = _
  split
  · simp only [proc, plaw_scale hs, Finset.mul_sum]
    refine Finset.sum_congr rfl fun k _ => ?_
    ring
  · ring

theorem common_cov {s : ℝ} (hs : 0 < s) (k : Plaw) (t t' : ℝ) : (common s k).cov t t' = s ^ 2 * k.cov t t' := by
  simp only [Plaw.cov, common, plaw_scale hs, Finset.mul_sum]
  refine Finset.sum_congr rfl fun n _ => ?_
  ring

theorem own_scale {s : ℝ} (hs : 0 < s) (d : Std) (L : Labels) (hm : d.marg = true) (same : Nat → Nat → Bool) (i j : Nat) (hi : i < d.errs.length) :
    (std s d).own (labels s L) same i j = s ^ 2 * d.own L same i j := by
  have he : (std s d).errs.getD i 0 = s * d.errs.getD i 0 := by
    show (d.errs.map (s * ·)).getD i 0 = _
    simp [List.getD, List.getElem?_map, List.getElem?_eq_getElem hi]
  have hp : ((std s d).procs.map fun g => g.cov (std s d).toas (std s d).nu ((labels s L).T g) i j).sum =
      s ^ 2 * (d.procs.map fun g => g.cov d.toas d.nu (L.T g) i j).sum := by
    show ((d.procs.map (proc s)).map fun g => g.cov d.toas d.nu ((labels s L).T g) i j).sum = _
    rw [List.map_map, ← List.sum_map_mul_left]
    congr 1
    refine List.map_congr_left fun g _ => ?_
    simp only [Function.comp, labels_proc, proc_cov hs]
  have hw : (std s d).white.var ((labels s L).key i) (s * d.errs.getD i 0) = s ^ 2 * d.white.var (L.key i) (d.errs.getD i 0) := white_var hs _ _ _
  have hec : (10 : ℝ) ^ (std s d).log10Ecorr ((labels s L).ekey i) = 10 ^ d.log10Ecorr (L.ekey i) * s := ten_shift hs _
  have hm' : (std s d).marg = true := hm
  unfold Std.own
  rw [he, hp, hw, hec, hm, hm']
  split <;> split <;> simp <;> ring

theorem delays_scale {n : Nat} (s : ℝ) (l : List (Option (Fin n → ℝ))) : (l.map (Option.map (s • ·))).reduceOption.sum = s • l.reduceOption.sum := by
  induction l with
  | nil => simp [List.reduceOption]
  | cons x t ih =>
    cases x with
    | none => simpa [List.reduceOption] using ih
    | some v => simpa [List.reduceOption, smul_add] using ih

theorem residuals_scale (s : ℝ) (ds : List (Std × Labels)) : ∀ r : Nat,
    concatOf ((ds.map (both s)).map fun d => ⟨d.1.toas.length, d.1.res - d.1.delays.reduceOption.sum⟩) r =
      s * concatOf (ds.map fun d => ⟨d.1.toas.length, d.1.res - d.1.delays.reduceOption.sum⟩) r := by
  induction ds with
  | nil => intro r; simp [concatOf]
  | cons d t ih =>
    intro r
    simp only [List.map_cons, concatOf]
    by_cases hr : r < d.1.toas.length
    · have e : r < (both s d).1.toas.length := hr
      rw [dif_pos hr, dif_pos e]
      show (s • d.1.res - (d.1.delays.map (Option.map (s • ·))).reduceOption.sum) ⟨r, hr⟩ = _
      rw [delays_scale]
      simp only [Pi.sub_apply, Pi.smul_apply, smul_eq_mul]
      ring
    · have e : ¬ r < (both s d).1.toas.length := hr
      rw [dif_neg hr, dif_neg e]
      exact ih (r - d.1.toas.length)

theorem size_both (s : ℝ) (ds : List (Std × Labels)) : size (ds.map (both s)) = size ds := by
  simp only [size, List.map_map]
  rfl

/-- C132: with the timing models marginalized over, residuals, delays and uncertainties in another unit, and the amplitudes of noise and
processes in that unit, change the log-likelihood by a constant: the logarithm of the factor for every TOA that is not used up by the
timing model.  So comparisons of parameters do not depend on the unit. -/
theorem C132_units {H : Type} [DecidableEq H] (hash : Col ℝ → H) (hh : Function.Injective hash)
    (svd : ∀ {n : Nat} (M : Matrix (Fin n) (Fin n) ℝ), Svd M) (method : Method) (argsort : List ℝ → List Nat)
    (hsort : ∀ l, Quantize.IsArgsort l (argsort l)) (seeded : Int → Bases.Rng) (orf : Nat → Pos → Pos → ℝ)
    (ks : List Plaw) (hu : ∀ k ∈ ks, k.Usual) (hs : Suits method ks) (ds : List (Std × Labels)) (h0 : ks ≠ [] ∨ ∀ d ∈ ds, d.1.procs ≠ [])
    (hds : ∀ d ∈ ds, d.1.Ok seeded d.2) (hm : ∀ d ∈ ds, d.1.marg = true)
    (horf : ∀ c, c < ks.length → (orfMatrix (orf c) fun u : Fin ds.length => (ds[u]).1.pos).PosDef)
    (hd : ∀ k ∈ ks, k.combine = true → ∀ d ∈ ds, DistinctAt k.args.nmodes k.T d.1.toas) (rng rng' : Bases.Rng) {s : ℝ} (hs0 : 0 < s) :
    ∃ ps ps' v, pta argsort seeded (ks.map Plaw.common) (ds.map fun d => d.1) rng = .ok ps ∧
      pta argsort seeded (ks.map fun k => (common s k).common) (ds.map fun d => std s d.1) rng' = .ok ps' ∧
      likelihood hash svd method orf ps = .ok (some v) ∧
      likelihood hash svd method orf ps' = .ok (some
        (v - ((((ds.map fun d => d.1.toas.length).sum : Nat) : ℝ) - ((ds.map fun d => d.1.tm.1).sum : Nat)) * Real.log s)) := by
  obtain ⟨ps, p1, same, p2, C, p3, p4, p5⟩ := C116_array hash hh svd method argsort hsort seeded orf ks hu hs ds
    (h0.imp_right fun h d hd => .inl (h d hd)) hds horf hd rng
  have hsuits : Suits method (ks.map (common s)) := by
    rcases hs with h | ⟨h1, h2, T, h3⟩ | ⟨h1, h2⟩
    · exact .inl h
    · refine .inr (.inl ⟨h1, fun k hk => ?_, T, fun k hk => ?_⟩)
      · obtain ⟨k, hk', rfl⟩ := List.mem_map.1 hk; exact h2 k hk'
      · obtain ⟨k, hk', rfl⟩ := List.mem_map.1 hk; exact h3 k hk'
    · exact .inr (.inr ⟨h1, by simpa using h2⟩)
  obtain ⟨ps', q1, same', q2, C', q3, q4, q5⟩ := C116_array hash hh svd method argsort hsort seeded orf (ks.map (common s))
    (fun k hk => by
      obtain ⟨k, hk', rfl⟩ := List.mem_map.1 hk
      have := hu k hk'
      exact ⟨this.plain, this.pshift, this.pseed, this.modes, this.span⟩) hsuits (ds.map (both s))
    (by
      rcases h0 with h | h
      · exact .inl (by simpa using h)
      · refine .inr fun d hd => .inl ?_
        obtain ⟨d, hd', rfl⟩ := List.mem_map.1 hd
        simpa [both, std] using h d hd')
    (fun d hd => by obtain ⟨d, hd', rfl⟩ := List.mem_map.1 hd; exact std_ok (hds d hd'))
    (fun c hc => posDef_of (fun d : Std × Labels => d.1.pos) (fun d : Std × Labels => d.1.pos) (by simp only [List.map_map]; rfl) (orf c)
      (horf c (by simpa using hc)))
    (fun k hk hkc d hd' => by
      obtain ⟨k, hk', rfl⟩ := List.mem_map.1 hk
      obtain ⟨d, hd'', rfl⟩ := List.mem_map.1 hd'
      exact hd k hk' hkc d hd'') rng'
  refine ⟨ps, ps', _, p1, ?_, p5, ?_⟩
  · rw [List.map_map, List.map_map] at q1
    exact q1
  rw [q5]
  have hsz := size_both s ds
  have hw : ((ds.map (both s)).map fun d => d.1.wide).sum = (ds.map fun d => d.1.wide).sum := by
    simp only [List.map_map]
    rfl
  have hwide : (ds.map fun d => d.1.wide).sum = (ds.map fun d => d.1.tm.1).sum := by
    congr 1
    refine List.map_congr_left fun d hd => ?_
    simp [Std.wide, hm d hd]
  have e : margLog C' (columns (ds.map (both s))) (residuals (ds.map (both s))) = margLog (s ^ 2 • C) (columns ds) (s • residuals ds) := by
    refine margLog_ext hsz hw _ _ _ _ _ _ (fun i j => ?_) (fun i j => ?_) fun i => ?_
    · obtain ⟨a, d, i', h1, h2, h3⟩ := find _ i.1 i.2
      obtain ⟨b, d', j', h1', h2', h3'⟩ := find _ j.1 j.2
      rw [List.getElem?_map] at h1 h1'
      obtain ⟨c, hca, rfl⟩ := Option.map_eq_some_iff.1 h1
      obtain ⟨c', hcb, rfl⟩ := Option.map_eq_some_iff.1 h1'
      have hcm : c ∈ ds := List.mem_of_getElem? hca
      have htake : ∀ a, size ((ds.map (both s)).take a) = size (ds.take a) := by
        intro a
        rw [← List.map_take, size_both]
      rw [q4 a b _ _ (by simp [hca]) (by simp [hcb]) i' j' h2 h2' i j h3 h3', Matrix.smul_apply, smul_eq_mul,
        p4 a b c c' hca hcb i' j' h2 h2' _ _ (by rw [← htake]; exact h3) (by rw [← htake]; exact h3'), mul_add]
      have hsame : ∀ i j, same' a i j = same a i j := by
        intro i j
        have := ((q2 a _ (by simp [hca] : _ = some (both s c))).exact i j).trans ((p2 a c hca).exact i j).symm
        exact Bool.eq_iff_iff.2 this
      congr 1
      · split
        · have : same' a = same a := by funext i j; exact hsame i j
          rw [this]
          exact own_scale hs0 c.1 c.2 (hm c hcm) _ _ _ (by rw [(hds c hcm).errs]; exact h2)
        · simp
      · rw [Finset.mul_sum]
        refine Fintype.sum_equiv (finCongr (List.length_map ..)) _ _ fun k => ?_
        show orf k c.1.pos c'.1.pos * ((ks.map (common s))[k.1]).cov (c.1.toas.getD i' 0) (c'.1.toas.getD j' 0) = _
        rw [List.getElem_map, common_cov hs0]
        simp only [finCongr_apply, Fin.val_cast, Fin.getElem_fin]
        ring
    · simp only [StdArray.columns, of_apply, List.map_map]
      rfl
    · exact residuals_scale s ds i
  rw [e, margLog_scale p3 (Wide.columns_injective hds) _ hs0, ← hwide]
  rfl

/-- A pulsar with ECORR, a process of its own and a marginalized timing model, and a background; residuals in microseconds. -/
example {H : Type} [DecidableEq H] (hash : Col ℝ → H) (hh : Function.Injective hash) (svd : ∀ {n : Nat} (M : Matrix (Fin n) (Fin n) ℝ), Svd M)
    (argsort : List ℝ → List Nat) (hsort : ∀ l, Quantize.IsArgsort l (argsort l)) (seeded : Int → Bases.Rng) (rng : Bases.Rng) :
    ∃ ps ps' v, pta argsort seeded [(⟨{ nmodes := 1 }, false, -14, 13 / 3, 4⟩ : Plaw).common] [StdArray.exA] rng = .ok ps ∧
      pta argsort seeded [(common 1e6 ⟨{ nmodes := 1 }, false, -14, 13 / 3, 4⟩).common] [std 1e6 StdArray.exA] rng = .ok ps' ∧
      likelihood hash svd .partition (fun _ _ _ => 1) ps = .ok (some v) ∧
      likelihood hash svd .partition (fun _ _ _ => 1) ps' = .ok (some (v - Real.log 1e6)) := by
  have := C132_units hash hh svd .partition argsort hsort seeded (fun _ _ _ => 1) [⟨{ nmodes := 1 }, false, -14, 13 / 3, 4⟩]
    (fun k hk => by
      obtain rfl := List.mem_singleton.1 hk
      exact ⟨⟨rfl, rfl, rfl, rfl⟩, rfl, rfl, by simp, by norm_num⟩) (.inr (.inr ⟨by simp, by simp⟩)) [(StdArray.exA, StdArray.exL)] (.inl (by simp))
    (fun d hd => by obtain rfl := List.mem_singleton.1 hd; exact (ex_ok seeded).1)
    (fun d hd => by obtain rfl := List.mem_singleton.1 hd; rfl)
    (fun c _ => by
      have e : (orfMatrix (fun _ _ => (1 : ℝ)) fun u : Fin [(StdArray.exA, StdArray.exL)].length => ([(StdArray.exA, StdArray.exL)][u]).1.pos) = 1 := by
        ext i j
        have : i = j := Subsingleton.elim (α := Fin 1) i j
        subst this
        simp [orfMatrix]
      rw [e]
      exact Matrix.PosDef.one)
    (fun k hk hc => by obtain rfl := List.mem_singleton.1 hk; cases hc) rng rng (s := 1e6) (by norm_num)
  simpa [StdArray.exA, show (2 : ℝ) - 1 = 1 by norm_num] using this

end Verif.Units
