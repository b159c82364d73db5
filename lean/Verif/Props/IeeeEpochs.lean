import Verif.Model.IeeeEpochs
import Verif.Props.IeeeChrom

/-!
# The likelihood with ECORR as a Gaussian process

C158: white noise, ECORR, processes and a timing model, from the times of arrival on.
-/

namespace Verif.Ieee

open Verif Matrix

variable (A : Arith) (L : Lib) (P : Powers) (S : Trig) {N K M : Nat} {μ δ κ : ℝ}

/-! ## Specification -/

/-- A pulsar, and `m` epochs: the epoch of each TOA, if any, and log10 of the common standard deviation. -/
structure EpochPsr where
  w : ChromPsr
  m : Nat
  ep : Fin w.M → Option (Fin m)
  e : Fin m → ℝ

namespace EpochPsr

variable (z : EpochPsr)

/-- The columns of the pulsar, and one that is one at the TOAs of each epoch. -/
noncomputable def coefs : List ((Fin z.w.M → ℝ) × ℝ) := z.w.coefs ++ List.ofFn fun j => (fun k => if z.ep k = some j then 1 else 0, (10 : ℝ) ^ (2 * z.e j))

/-- The pulsar in exact arithmetic. -/
noncomputable def exact : GpPsr := ⟨z.coefs.length, z.w.M, Matrix.of fun k i => (z.coefs.get i).1 k, z.w.ν, z.w.r, fun i => (z.coefs.get i).2⟩

/-- `p` holds computed numbers of the pulsar. -/
def Code (p : PsrF) : Prop :=
  IsEpochsF A P S (List.ofFn fun k => .fin (z.w.t k)) (List.ofFn fun k => .fin (z.w.f k))
    (z.w.procs.map fun q => ⟨q.n, .fin q.span, .fin q.a, .fin q.g, q.chrom.map fun c => (.fin c.1, .fin c.2)⟩) (List.ofFn fun j => (List.ofFn (z.w.D j)).map .fin)
    (List.ofFn fun k => (z.ep k).map Fin.val) (List.ofFn fun j => .fin (z.e j)) (List.ofFn fun k => (.fin (z.w.s k), .fin (z.w.efac k), .fin (z.w.equad k))) (List.ofFn fun k => .fin (z.w.r k)) p

end EpochPsr

/-! ## Pulsars with lists of columns -/

/-- The pulsar with these columns and variances. -/
noncomputable def psrOf (ν r : Fin M → ℝ) (cs : List ((Fin M → ℝ) × ℝ)) : GpPsr := ⟨cs.length, M, Matrix.of fun k i => (cs.get i).1 k, ν, r, fun i => (cs.get i).2⟩

theorem psrOf_prec (ν r : Fin M → ℝ) (cs : List ((Fin M → ℝ) × ℝ)) (i j : Fin cs.length) :
    (psrOf ν r cs).prec i j = (∑ k, (cs.get i).1 k * (cs.get j).1 k / ν k) + if i = j then ((cs.get i).2)⁻¹ else 0 := prec_apply (o := psrOf ν r cs) i j

theorem psd_sub {n n' : Nat} {B : Matrix (Fin n) (Fin n) ℝ} {C : Matrix (Fin n') (Fin n') ℝ} {f : Fin n' → Fin n} (hf : ∀ i j, f i = f j → i = j) (h : ∀ i j, B (f i) (f j) = C i j)
    (hB : (B - μ • diagonal B.diag).PosSemidef) : (C - μ • diagonal C.diag).PosSemidef := by
  have e : (B - μ • diagonal B.diag).submatrix f f = C - μ • diagonal C.diag := by
    refine Matrix.ext fun i j => ?_
    rw [submatrix_apply, Matrix.sub_apply, Matrix.sub_apply, Matrix.smul_apply, Matrix.smul_apply, h i j]
    by_cases hij : i = j
    · subst hij
      rw [diagonal_apply_eq, diagonal_apply_eq, diag_apply, diag_apply, h i i]
    · rw [diagonal_apply_ne _ hij, diagonal_apply_ne _ (fun g => hij (hf i j g))]
  rw [← e]
  exact hB.submatrix f

/-- A pulsar with fewer columns. -/
theorem core_left {ν r : Fin M → ℝ} {cs ds : List ((Fin M → ℝ) × ℝ)} (I : CorePsr N K μ (psrOf ν r (cs ++ ds))) : CorePsr N K μ (psrOf ν r cs) := by
  have hl : ∀ i : Fin cs.length, (i : ℕ) < (cs ++ ds).length := fun i => by
    rw [List.length_append]
    omega
  have hg : ∀ i : Fin cs.length, (cs ++ ds).get ⟨i, hl i⟩ = cs.get i := fun i => by
    rw [List.get_eq_getElem, List.get_eq_getElem, List.getElem_append_left]
  have hp : ∀ i j : Fin cs.length, (psrOf ν r (cs ++ ds)).prec ⟨i, hl i⟩ ⟨j, hl j⟩ = (psrOf ν r cs).prec i j := by
    intro i j
    refine (psrOf_prec ν r (cs ++ ds) ⟨i, hl i⟩ ⟨j, hl j⟩).trans (Eq.trans ?_ (psrOf_prec ν r cs i j).symm)
    rw [hg, hg]
    simp only [Fin.mk.injEq, Fin.ext_iff]
  refine ⟨le_trans ?_ I.le, I.toas, I.νlow, I.νhigh, fun i => ?_, fun i => ?_, fun k i => ?_, I.r, fun i => ?_, fun i => ?_, I.ρ, ?_⟩
  · show cs.length ≤ (cs ++ ds).length
    rw [List.length_append]
    omega
  · have := I.φlow ⟨i, hl i⟩
    show _ ≤ (cs.get i).2
    rw [← hg i]
    exact this
  · have := I.φhigh ⟨i, hl i⟩
    show (cs.get i).2 ≤ _
    rw [← hg i]
    exact this
  · have := I.T k ⟨i, hl i⟩
    show |(cs.get i).1 k| ≤ _
    rw [← hg i]
    exact this
  · rw [← hp i i]
    exact I.low _
  · rw [← hp i i]
    exact I.high _
  · exact psd_sub (f := fun i : Fin cs.length => (⟨i, hl i⟩ : Fin (cs ++ ds).length)) (fun i j h => Fin.ext (Fin.mk.inj h)) hp I.margin

/-- Computed columns and variances near exact ones. -/
theorem list_near {ν r : Fin M → ℝ} {cs : List ((Fin M → ℝ) × ℝ)} {cs' : List (List Fl)} {vs : List Fl} {ns : List Fl} {ν' : Fin M → ℝ} (hc : List.Forall₂ (ColNear ν κ) cs' cs) (hv : List.Forall₂ (VarNear A δ) vs cs)
    (hν : ∀ k, |ν' k - ν k| ≤ δ * ν k) (hn : ns = List.ofFn fun k => .fin (ν' k)) :
    FullNear δ κ ⟨cs'.length, fun i => cs'.getD i [], ns, List.ofFn fun k => .fin (r k), fun i => (vs.map (add A (.fin 0))).getD i (.fin 1)⟩ (psrOf ν r cs) := by
  have hl := hc.length_eq
  have hlv := hv.length_eq
  have g1 : ∀ i : Fin cs.length, ∃ y : Fin M → ℝ, cs'.getD i [] = List.ofFn (fun k => .fin (y k)) ∧ (∀ k, |y k - (cs.get i).1 k| ≤ 1) ∧
      ∑ k, (y k - (cs.get i).1 k) ^ 2 / ν k ≤ κ ^ 2 * (psrOf ν r cs).prec i i := by
    intro i
    obtain ⟨y, y1, y2, y3⟩ := (List.forall₂_iff_get.1 hc).2 i (by omega) i.2
    refine ⟨y, ?_, y2, ?_⟩
    · rw [List.getD_eq_getElem?_getD, List.getElem?_eq_getElem (by omega), Option.getD_some]
      exact y1
    · rw [psrOf_prec, if_pos rfl, ← one_div]
      refine y3.trans_eq (congrArg _ (congrArg₂ _ (Finset.sum_congr rfl fun k _ => ?_) rfl))
      rw [sq]
  have g2 : ∀ i : Fin cs.length, ∃ x, (vs.map (add A (.fin 0))).getD i (.fin 1) = .fin x ∧ |x - (cs.get i).2| ≤ δ * (cs.get i).2 := by
    intro i
    obtain ⟨x, x1, x2⟩ := (List.forall₂_iff_get.1 hv).2 i (by omega) i.2
    refine ⟨x, ?_, x2⟩
    rw [List.getD_eq_getElem?_getD, List.getElem?_map, List.getElem?_eq_getElem (by omega), Option.map_some, Option.getD_some]
    exact x1
  choose T' c1 c2 c3 using g1
  choose φ' d1 d2 using g2
  refine ⟨Matrix.of fun k i => T' i k, ⟨fun k i => c2 i k, c3⟩, ν', φ', hν, d2, ?_⟩
  have e2 : (fun i => (vs.map (add A (.fin 0))).getD i (.fin 1)) = fun i => if h : i < cs.length then .fin (φ' ⟨i, h⟩) else .fin 1 := by
    funext i
    by_cases hi : i < cs.length
    · rw [dif_pos hi, d1 ⟨i, hi⟩]
    · rw [dif_neg hi, List.getD_eq_getElem?_getD, List.getElem?_eq_none, Option.getD_none]
      rw [List.length_map]
      omega
  have e3 : (fun i => cs'.getD i []) = fun i => if h : i < cs.length then List.ofFn fun k => .fin (T' ⟨i, h⟩ k) else [] := by
    funext i
    by_cases hi : i < cs.length
    · rw [dif_pos hi]
      exact c1 ⟨i, hi⟩
    · rw [dif_neg hi, List.getD_eq_getElem?_getD, List.getElem?_eq_none (by omega), Option.getD_none]
  rw [e2, e3, hl, hn]
  rfl

/-! ## Epochs -/

/-- The columns of the epochs. -/
theorem quant_cols (z : EpochPsr) (κ : ℝ) (I : CorePsr N K μ z.exact) : List.Forall₂ (ColNear z.w.ν κ) (quantCols z.m (List.ofFn fun k => (z.ep k).map Fin.val))
    (List.ofFn fun j => (fun k => if z.ep k = some j then 1 else 0, (10 : ℝ) ^ (2 * z.e j))) := by
  refine List.forall₂_iff_get.2 ⟨by simp [quantCols], fun j h1 h2 => ?_⟩
  have hj : j < z.m := by simpa using h2
  simp only [List.get_eq_getElem, List.getElem_ofFn, quantCols, List.getElem_map, List.getElem_range]
  refine ⟨fun k => if z.ep k = some ⟨j, hj⟩ then 1 else 0, ?_, fun k => ?_, ?_⟩
  · rw [List.map_ofFn]
    congr 1
    funext k
    rw [Function.comp_apply]
    have : (z.ep k).map Fin.val = some j ↔ z.ep k = some ⟨j, hj⟩ := by
      cases z.ep k with
      | none => simp
      | some i => simp [Fin.ext_iff]
    by_cases h : z.ep k = some ⟨j, hj⟩
    · rw [if_pos (this.2 h)]
      exact congrArg _ (if_pos h).symm
    · rw [if_neg (mt this.1 h)]
      exact congrArg _ (if_neg h).symm
  · rw [sub_self, abs_zero]
    exact zero_le_one
  · have e : ∑ k, ((if z.ep k = some ⟨j, hj⟩ then (1 : ℝ) else 0) - if z.ep k = some ⟨j, hj⟩ then 1 else 0) ^ 2 / z.w.ν k = 0 := Finset.sum_eq_zero fun k _ => by
      rw [sub_self]
      simp
    rw [e]
    have hν : ∀ k, 0 < z.w.ν k := I.νpos
    refine mul_nonneg (sq_nonneg _) (add_nonneg (Finset.sum_nonneg fun k _ => div_nonneg (sq_nonneg _) (hν k).le) (by positivity))

/-- The variances of the epochs. -/
theorem ecorr_vars {m : Nat} {e : Fin m → ℝ} (he : ∀ j, Rep (e j) ∧ |e j| ≤ 30) (hN : N ≤ 2 ^ 16) (u : Fin m → Fin M → ℝ) :
    List.Forall₂ (VarNear A ((4 * N + 100) * (2 : ℝ) ^ (-50 : ℤ))) (ecorrVars A P (List.ofFn fun j => .fin (e j))) (List.ofFn fun j => (u j, (10 : ℝ) ^ (2 * e j))) := by
  rw [ecorrVars, List.map_ofFn]
  refine List.forall₂_iff_get.2 ⟨by simp, fun j h1 h2 => ?_⟩
  have hj : j < m := by simpa using h2
  simp only [List.get_eq_getElem, List.getElem_ofFn, Function.comp_apply]
  have N0 : (0 : ℝ) ≤ N := Nat.cast_nonneg N
  have N1 : (N : ℝ) ≤ 2 ^ 16 := by exact_mod_cast hN
  obtain ⟨x, hx, ox⟩ := squared_off A P (he ⟨j, hj⟩).1 (he ⟨j, hj⟩).2
  have o1 : Off 0 0 1 1 := .exact (by norm_num) (by simp)
  obtain ⟨y, hy, oy⟩ := o1.mul A ox (by norm_num) (by norm_num)
  rw [one_mul] at oy
  obtain ⟨v, hv, ov⟩ := add_zero_off A oy (by norm_num) (by norm_num)
  exact ⟨v, by rw [hx, hy, hv], (ov.rel (by linarith) (by linarith)).2⟩

/-- The computed numbers of a pulsar. -/
theorem epoch_near {z : EpochPsr} (R : z.w.Ranges) (he : ∀ j, Rep (z.e j) ∧ |z.e j| ≤ 30) {H l : ℝ} (F : z.w.Phases H l) (I : CorePsr N K μ z.exact) (hN : N ≤ 2 ^ 16) (hK : K ≤ 2 ^ 22)
    (hκ : (H * l + 3 * K + 11) * eps ≤ 1) {p : PsrF} (h : z.Code A P S p) : FullNear ((4 * N + 100) * (2 : ℝ) ^ (-50 : ℤ)) ((H * l + 3 * K + 11) * eps) p z.exact := by
  obtain ⟨outs, vs, h1, h2, rfl⟩ := h
  have I' : CorePsr N K μ z.w.exact := core_left (ν := z.w.ν) (r := z.w.r) (cs := z.w.coefs) I
  have hc := chrom_cols A P S R F I' hN hK hκ h1
  obtain ⟨vs', h3, hv⟩ := chrom_vars A P R I' hN
  have e3 : (Except.ok vs : Except PyErr _) = .ok vs' := h2.symm.trans h3
  cases e3
  have hw : ∀ k, ∃ x, add A (.fin 0) (ndiagF A P (.fin (z.w.s k)) (.fin (z.w.efac k)) (some (.fin (z.w.equad k)))) = .fin x ∧ Off 11 401 x (z.w.ν k) := by
    intro k
    obtain ⟨x, hx, ox⟩ := ndiag_off A P (R.s k).1 (R.s k).2 (R.efac k).1 (R.efac k).2 (R.equad k).1 (R.equad k).2
    obtain ⟨y, hy, oy⟩ := add_zero_off A ox (by norm_num) (by norm_num)
    exact ⟨y, by rw [hx, hy], oy.mono (by norm_num) le_rfl⟩
  choose ν' hν oν using hw
  have N0 : (0 : ℝ) ≤ N := Nat.cast_nonneg N
  have N1 : (N : ℝ) ≤ 2 ^ 16 := by exact_mod_cast hN
  have hq := quant_cols z ((H * l + 3 * K + 11) * eps) I
  have hev := ecorr_vars A P he hN fun j k => if z.ep k = some j then 1 else 0
  have e1 : ndiagsF A P (List.ofFn fun k => (.fin (z.w.s k), .fin (z.w.efac k), .fin (z.w.equad k))) = List.ofFn fun k => .fin (ν' k) := by
    rw [ndiagsF, List.map_ofFn]
    congr 1
    funext k
    exact hν k
  have hv2 : List.Forall₂ (VarNear A ((4 * N + 100) * (2 : ℝ) ^ (-50 : ℤ))) (vs ++ [List.replicate z.w.p (tmPriorF A)] ++ [ecorrVars A P (List.ofFn fun j => .fin (z.e j))]).flatten z.coefs := by
    rw [List.flatten_append, List.flatten_singleton]
    exact List.rel_append hv hev
  have key := list_near A (r := z.w.r) (List.rel_append hc hq) hv2 (fun k => ((oν k).rel (by linarith) (by linarith)).2) e1
  rw [List.length_ofFn, List.length_ofFn]
  exact key

theorem epoch_all {H l : ℝ} (hN : N ≤ 2 ^ 16) (hK : K ≤ 2 ^ 22) (hκ : (H * l + 3 * K + 11) * eps ≤ 1) {zs : List EpochPsr} {ps : List PsrF} (h : List.Forall₂ (EpochPsr.Code A P S) zs ps)
    (hz : ∀ z ∈ zs, z.w.Ranges ∧ (∀ j, Rep (z.e j) ∧ |z.e j| ≤ 30) ∧ z.w.Phases H l ∧ CorePsr N K μ z.exact) :
    List.Forall₂ (fun p o => FullNear ((4 * N + 100) * (2 : ℝ) ^ (-50 : ℤ)) ((H * l + 3 * K + 11) * eps) p o ∧ CorePsr N K μ o) ps (zs.map EpochPsr.exact) := by
  induction h with
  | nil => exact .nil
  | @cons z p zs ps h1 h2 ih =>
    obtain ⟨R, he, F, I⟩ := hz z List.mem_cons_self
    exact .cons ⟨epoch_near A P S R he F I hN hK hκ h1, I⟩ (ih fun x hx => hz x (List.mem_cons_of_mem _ hx))

/-- C158: the computed likelihood with ECORR as a Gaussian process. -/
theorem C158_epochs (hL : GoodLog L) {H l : ℝ} (hN0 : 1 ≤ N) (hK : K ≤ 2 ^ 22) (hμ1 : μ ≤ 1) (hK2 : 800 * ((K + 3) * (2 : ℝ) ^ (-51 : ℤ) * N) ≤ μ)
    (hμ : 2 ^ 21 * N ^ 2 * (2 : ℝ) ^ (-51 : ℤ) ≤ μ) (hH : 300 * ((H * l + 3 * K + 11) * (2 : ℝ) ^ (-51 : ℤ) * N) ≤ μ) {zs : List EpochPsr}
    (hz : ∀ z ∈ zs, z.w.Ranges ∧ (∀ j, Rep (z.e j) ∧ |z.e j| ≤ 30) ∧ z.w.Phases H l ∧ CorePsr N K μ z.exact) (h0 : zs ≠ []) (hP : zs.length ≤ 2 ^ 15) {ps : List PsrF}
    (h : List.Forall₂ (EpochPsr.Code A P S) zs ps) {r : Except PyErr Fl} (hr : IsLikelihood A L ps r) :
    ∃ v, r = .ok (.fin v) ∧ |v - (zs.map fun z => z.exact.like).sum| ≤
      ((42600 * N ^ 2 + 87 * (K + 3) * N + 9 * H * l * N) / μ + 4 * zs.length) * (2 : ℝ) ^ (-51 : ℤ) * (zs.map fun z => z.exact.size).sum + (2 : ℝ) ^ (-999 : ℤ) := by
  have Hl : 0 ≤ H * l := by
    obtain ⟨z, hz'⟩ := List.exists_mem_of_ne_nil zs h0
    have F := (hz z hz').2.2.1
    exact mul_nonneg (by linarith [F.pos]) (by linarith [F.one])
  have := near_likelihood A L hL hN0 hK hμ1 hK2 hμ hH Hl (os := zs.map EpochPsr.exact) (by simpa using h0) (by simpa using hP) (fun N3 hκ1 => epoch_all A P S N3 hK hκ1 h hz) hr
  rw [List.map_map, List.map_map, List.length_map] at this
  exact this

/-- C158: the covariance is that without ECORR, and a common variance of the TOAs of an epoch. -/
theorem C158_covariance (z : EpochPsr) (k l : Fin z.w.M) : z.exact.cov k l = z.w.exact.cov k l + ∑ j, if z.ep k = some j ∧ z.ep l = some j then (10 : ℝ) ^ (2 * z.e j) else 0 := by
  have e : ∀ cs : List ((Fin z.w.M → ℝ) × ℝ), (psrOf z.w.ν z.w.r cs).cov k l = diagonal z.w.ν k l + (cs.map fun c => c.1 k * c.2 * c.1 l).sum := by
    intro cs
    show (diagonal z.w.ν + (Matrix.of fun k i => (cs.get i).1 k : Matrix (Fin z.w.M) (Fin cs.length) ℝ) * diagonal (fun i => (cs.get i).2) *
      (Matrix.of fun k i => (cs.get i).1 k : Matrix (Fin z.w.M) (Fin cs.length) ℝ)ᵀ) k l = _
    rw [Matrix.add_apply, Matrix.mul_apply]
    congr 1
    rw [← List.ofFn_get (cs.map _), List.sum_ofFn, ← (finCongr (List.length_map _)).sum_comp]
    refine Finset.sum_congr rfl fun i _ => ?_
    rw [mul_diagonal, transpose_apply]
    simp [psrOf]
  have e1 : z.exact.cov k l = diagonal z.w.ν k l + (z.coefs.map fun c => c.1 k * c.2 * c.1 l).sum := e z.coefs
  have e2 : z.w.exact.cov k l = diagonal z.w.ν k l + (z.w.coefs.map fun c => c.1 k * c.2 * c.1 l).sum := e z.w.coefs
  rw [e1, e2, EpochPsr.coefs, List.map_append, List.sum_append, List.map_ofFn, List.sum_ofFn, add_assoc]
  congr 2
  refine Finset.sum_congr rfl fun j _ => ?_
  rw [Function.comp_apply]
  by_cases h1 : z.ep k = some j <;> by_cases h2 : z.ep l = some j <;> simp [h1, h2]

/-- The numbers exist. -/
theorem exists_epochs {z : EpochPsr} (R : z.w.Ranges) (I : CorePsr N K μ z.exact) (hN : N ≤ 2 ^ 16) : ∃ p, z.Code A P S p := by
  obtain ⟨outs, h⟩ := exists_cols A (List.ofFn fun j => (List.ofFn (z.w.D j)).map .fin)
  obtain ⟨vs, h1, -⟩ := chrom_vars A P R (core_left (ν := z.w.ν) (r := z.w.r) (cs := z.w.coefs) I : CorePsr N K μ z.w.exact) hN
  exact ⟨_, outs, vs, h, h1, rfl⟩

/-! ## Example -/

/-- Four TOAs with errors 1, EFAC 1, EQUAD `10^0`, of which the first two make up an epoch with ECORR `10^-1`; a power law with one frequency over a span of 4, and a timing model with an offset. -/
noncomputable def exEpochs : EpochPsr :=
  ⟨⟨[⟨1, 4, 0, 3, none⟩], 1, 4, ![1, 2, 3, 4], fun _ => 700, fun _ _ => 1, ![3, 1, 2, 1], fun _ => 1, fun _ => 1, fun _ => 0⟩, 1, (![some 0, some 0, none, none] : Fin 4 → Option (Fin 1)), fun _ => -1⟩

theorem exEpochs_ranges : exEpochs.w.Ranges := by
  refine ⟨exChrom_ranges.s, exChrom_ranges.efac, exChrom_ranges.equad, exChrom_ranges.t, exChrom_ranges.f, exChrom_ranges.D, fun q hq => ?_, fun q hq => ?_, fun q hq c hc => ?_⟩
  · obtain rfl := List.mem_singleton.1 hq
    exact exChrom_ranges.span _ List.mem_cons_self
  · obtain rfl := List.mem_singleton.1 hq
    exact exChrom_ranges.law _ List.mem_cons_self
  · obtain rfl := List.mem_singleton.1 hq
    cases hc

theorem exEpochs_coefs : exEpochs.coefs =
    [((![1, 0, -1, 0] : Fin 4 → ℝ), law 4 0 3 0), (![0, -1, 0, 1], law 4 0 3 0), (![1 / 2, 1 / 2, 1 / 2, 1 / 2], 10 ^ 40), (![1, 1, 0, 0], 1 / 100)] := by
  have h : exEpochs.coefs = [((fun k => wave 4 0 ((![1, 2, 3, 4] : Fin 4 → ℝ) k) * 1), law 4 0 3 0), (fun k => wave 4 1 ((![1, 2, 3, 4] : Fin 4 → ℝ) k) * 1, law 4 0 3 0),
      (fun _ => 1 / Real.sqrt (∑ _l : Fin 4, (1 : ℝ) ^ 2), 10 ^ 40), (fun k => if (![some 0, some 0, none, none] : Fin 4 → Option (Fin 1)) k = some 0 then 1 else 0, (10 : ℝ) ^ (2 * (-1 : ℝ)))] := rfl
  rw [h]
  have hs : Real.sqrt (∑ _l : Fin 4, (1 : ℝ) ^ 2) = 2 := by
    rw [show ∑ _l : Fin 4, (1 : ℝ) ^ 2 = 2 ^ 2 by norm_num, Real.sqrt_sq (by norm_num)]
  rw [hs]
  have w0 : (fun k : Fin 4 => wave 4 0 ((![1, 2, 3, 4] : Fin 4 → ℝ) k) * 1) = ![1, 0, -1, 0] := by
    funext k
    rw [(exWave k).1, mul_one]
  have w1 : (fun k : Fin 4 => wave 4 1 ((![1, 2, 3, 4] : Fin 4 → ℝ) k) * 1) = ![0, -1, 0, 1] := by
    funext k
    rw [(exWave k).2.1, mul_one]
  have w4 : (fun _ : Fin 4 => (1 : ℝ) / 2) = ![1 / 2, 1 / 2, 1 / 2, 1 / 2] := by
    funext k
    fin_cases k <;> rfl
  have w5 : (fun k : Fin 4 => if (![some 0, some 0, none, none] : Fin 4 → Option (Fin 1)) k = some 0 then (1 : ℝ) else 0) = ![1, 1, 0, 0] := by
    funext k
    fin_cases k <;> simp
  have w6 : (10 : ℝ) ^ (2 * (-1 : ℝ)) = 1 / 100 := by
    rw [show (2 * (-1 : ℝ)) = ((-2 : ℤ) : ℝ) by norm_num, Real.rpow_intCast]
    norm_num
  rw [w0, w1, w4, w5, w6]

theorem exEpochs_ν : exEpochs.w.ν = fun _ => 2 := by
  funext k
  show (1 : ℝ) ^ 2 * (1 ^ 2 + (10 : ℝ) ^ (2 * (0 : ℝ))) = 2
  norm_num

/-- The basis of the example. -/
noncomputable def exE : Matrix (Fin 4) (Fin 4) ℝ := !![1, 0, 1 / 2, 1; 0, -1, 1 / 2, 1; -1, 0, 1 / 2, 0; 0, 1, 1 / 2, 0]

/-- The variances of the example. -/
noncomputable def exF : Fin 4 → ℝ := ![law 4 0 3 0, law 4 0 3 0, 10 ^ 40, 1 / 100]

/-- The pulsar of the example. -/
noncomputable def exJ : GpPsr := ⟨4, 4, exE, fun _ => 2, ![3, 1, 2, 1], exF⟩

theorem exEpochs_exact : exEpochs.exact = exJ := by
  have h : ∀ cs : List ((Fin 4 → ℝ) × ℝ), cs = [((![1, 0, -1, 0] : Fin 4 → ℝ), law 4 0 3 0), (![0, -1, 0, 1], law 4 0 3 0), (![1 / 2, 1 / 2, 1 / 2, 1 / 2], 10 ^ 40), (![1, 1, 0, 0], 1 / 100)] →
      ∀ ν : Fin 4 → ℝ, ν = (fun _ => 2) → (⟨cs.length, 4, Matrix.of fun k i => (cs.get i).1 k, ν, ![3, 1, 2, 1], fun i => (cs.get i).2⟩ : GpPsr) = exJ := by
    rintro _ rfl _ rfl
    have g : ∀ {T : Matrix (Fin 4) (Fin 4) ℝ} {v : Fin 4 → ℝ}, T = exE → v = exF → (⟨4, 4, T, fun _ => 2, ![3, 1, 2, 1], v⟩ : GpPsr) = exJ := by
      rintro _ _ rfl rfl
      rfl
    refine g ?_ ?_
    · refine Matrix.ext fun (k : Fin 4) (i : Fin 4) => ?_
      fin_cases i <;> fin_cases k <;> rfl
    · funext i
      fin_cases i <;> rfl
  exact h exEpochs.coefs exEpochs_coefs exEpochs.w.ν exEpochs_ν

theorem exF_le (i : Fin 4) : 1 / 768 ≤ exF i ∧ exF i ≤ 10 ^ 40 := by
  fin_cases i
  · exact exV_le 0
  · exact exV_le 0
  · show (1 : ℝ) / 768 ≤ 10 ^ 40 ∧ (10 : ℝ) ^ 40 ≤ 10 ^ 40
    norm_num
  · show (1 : ℝ) / 768 ≤ 1 / 100 ∧ (1 : ℝ) / 100 ≤ 10 ^ 40
    norm_num

/-- The products of the columns. -/
noncomputable def exP : Matrix (Fin 4) (Fin 4) ℝ := !![1, 0, 0, 1 / 2; 0, 1, 0, -1 / 2; 0, 0, 1 / 2, 1 / 2; 1 / 2, -1 / 2, 1 / 2, 1]

theorem exE_dot (i j : Fin 4) : ∑ k : Fin 4, exE k i * exE k j / 2 = exP i j := by
  rw [Fin.sum_univ_four]
  have r0 : ∀ i, exE 0 i = ![1, 0, 1 / 2, 1] i := fun _ => rfl
  have r1 : ∀ i, exE 1 i = ![0, -1, 1 / 2, 1] i := fun _ => rfl
  have r2 : ∀ i, exE 2 i = ![-1, 0, 1 / 2, 0] i := fun _ => rfl
  have r3 : ∀ i, exE 3 i = ![0, 1, 1 / 2, 0] i := fun _ => rfl
  rw [r0, r1, r2, r3, r0, r1, r2, r3]
  fin_cases i <;> fin_cases j <;> norm_num [exP]

theorem exJ_prec (i j : Fin 4) : exJ.prec i j = exP i j + if i = j then (exF i)⁻¹ else 0 := by
  refine (prec_apply (o := exJ) i j).trans ?_
  have e : ∑ k, exJ.T k i * exJ.T k j / exJ.ν k = exP i j := exE_dot i j
  rw [e]
  rfl

theorem exJ_margin {B : Matrix (Fin 4) (Fin 4) ℝ} (hB : ∀ i j, B i j = exP i j + if i = j then (exF i)⁻¹ else 0) : (B - (1 / 2 : ℝ) • diagonal B.diag).PosSemidef := by
  have hφ : ∀ i : Fin 4, 0 < (exF i)⁻¹ := fun i => inv_pos.2 (lt_of_lt_of_le (by norm_num) (exF_le i).1)
  have hs : ∀ i j, exP i j = exP j i := fun i j => by fin_cases i <;> fin_cases j <;> norm_num [exP]
  have hH : (B - (1 / 2 : ℝ) • diagonal B.diag) = Matrix.of fun i j => if i = j then 1 / 2 * (exP i i + (exF i)⁻¹) else exP i j := by
    refine Matrix.ext fun i j => ?_
    rw [Matrix.sub_apply, Matrix.smul_apply, Matrix.of_apply, smul_eq_mul]
    by_cases h : i = j
    · subst h
      rw [diagonal_apply_eq, diag_apply, hB, if_pos rfl, if_pos rfl]
      ring
    · rw [diagonal_apply_ne _ h, hB, if_neg h, if_neg h]
      ring
  rw [hH]
  refine PosSemidef.of_dotProduct_mulVec_nonneg (Matrix.ext fun i j => ?_) fun x => ?_
  · rw [conjTranspose_apply, Matrix.of_apply, Matrix.of_apply, star_trivial]
    by_cases h : i = j
    · subst h
      rfl
    · rw [if_neg h, if_neg (Ne.symm h), hs]
  · have h3 : (exF 3)⁻¹ = 100 := by
      show ((1 : ℝ) / 100)⁻¹ = 100
      norm_num
    have e : star x ⬝ᵥ ((Matrix.of fun i j => if i = j then 1 / 2 * (exP i i + (exF i)⁻¹) else exP i j) *ᵥ x) =
        1 / 2 * (1 + (exF 0)⁻¹) * x 0 ^ 2 + 1 / 2 * (1 + (exF 1)⁻¹) * x 1 ^ 2 + 1 / 2 * (1 / 2 + (exF 2)⁻¹) * x 2 ^ 2 + 1 / 2 * (1 + (exF 3)⁻¹) * x 3 ^ 2 + x 0 * x 3 - x 1 * x 3 + x 2 * x 3 := by
      simp [dotProduct, mulVec, Fin.sum_univ_four, exP]
      ring
    rw [e, h3]
    have p0 := mul_nonneg (hφ 0).le (sq_nonneg (x 0))
    have p1 := mul_nonneg (hφ 1).le (sq_nonneg (x 1))
    have p2 := mul_nonneg (hφ 2).le (sq_nonneg (x 2))
    nlinarith [sq_nonneg (x 0 + x 3), sq_nonneg (x 1 - x 3), sq_nonneg (x 2 + 2 * x 3), sq_nonneg (x 3)]

theorem exJ_core : CorePsr 4 4 (1 / 2) exJ := by
  have b : ∀ {e : ℤ} {x : ℝ}, 10 ≤ e → x ≤ 1024 → x ≤ (2 : ℝ) ^ e := fun h hx =>
    hx.trans ((by norm_num : (1024 : ℝ) ≤ (2 : ℝ) ^ (10 : ℤ)).trans (zpow_le_zpow_right₀ (by norm_num) h))
  have c : ∀ {e : ℤ} {x : ℝ}, e ≤ -140 → 1 / 10 ^ 40 ≤ x → (2 : ℝ) ^ e ≤ x := fun h hx =>
    ((zpow_le_zpow_right₀ (by norm_num) h).trans (by norm_num : (2 : ℝ) ^ (-140 : ℤ) ≤ 1 / 10 ^ 40)).trans hx
  have hφ0 : ∀ i : Fin 4, 0 < exF i := fun i => lt_of_lt_of_le (by norm_num) (exF_le i).1
  have hp : ∀ i : Fin 4, exJ.prec i i = exP i i + (exF i)⁻¹ := fun i => (exJ_prec i i).trans (congrArg _ (if_pos rfl))
  have hd : ∀ i : Fin 4, 0 ≤ exP i i ∧ exP i i ≤ 1 := fun i => by fin_cases i <;> norm_num [exP]
  refine ⟨le_rfl, le_rfl, fun k => c (by norm_num) ?_, fun k => b (by norm_num) ?_, fun i => c (by norm_num) ?_, fun i => ?_, fun k i => b (by norm_num) ?_, fun k => b (by norm_num) ?_,
    fun i => c (by norm_num) ?_, fun i => b (by norm_num) ?_, b (by norm_num) ?_, ?_⟩
  · show (1 : ℝ) / 10 ^ 40 ≤ 2
    norm_num
  · show (2 : ℝ) ≤ 1024
    norm_num
  · exact le_trans (by norm_num) (exF_le i).1
  · refine (exF_le i).2.trans ?_
    exact (by norm_num : (10 : ℝ) ^ 40 ≤ (2 : ℝ) ^ (133 : ℤ)).trans (zpow_le_zpow_right₀ (by norm_num) (by norm_num))
  · have h : ∀ (k : Fin 4) (i : Fin 4), |exE k i| ≤ 1024 := fun k i => by
      fin_cases k <;> fin_cases i <;> norm_num [exE]
    exact h k i
  · have h : ∀ k : Fin 4, |(![3, 1, 2, 1] : Fin 4 → ℝ) k| ≤ 1024 := fun k => by fin_cases k <;> norm_num
    exact h k
  · refine le_trans ?_ (hp i).ge
    have h1 := inv_anti₀ (hφ0 i) (exF_le i).2
    have h2 := (hd i).1
    rw [one_div]
    linarith
  · refine (hp i).trans_le ?_
    have : (exF i)⁻¹ ≤ 768 := by
      have := inv_anti₀ (by norm_num) (exF_le i).1
      linarith
    have := (hd i).2
    linarith
  · have e : exJ.ρ = ∑ k : Fin 4, (![3, 1, 2, 1] : Fin 4 → ℝ) k ^ 2 / 2 := rfl
    rw [e, ex_res4]
    norm_num
  · exact exJ_margin exJ_prec

theorem exEpochs_phases : exEpochs.w.Phases 160 2 := by
  have hf : ∀ k : Fin 4, (![1, 2, 3, 4] : Fin 4 → ℝ) k ≤ 4 := fun k => by fin_cases k <;> norm_num
  have hπ := Real.pi_lt_d2
  have hπ0 := Real.pi_pos
  refine ⟨by norm_num, by norm_num, fun q hq k => ?_, fun q hq k => ?_, fun q hq c hc => ?_⟩
  · obtain rfl := List.mem_singleton.1 hq
    have h1 := mul_le_mul_of_nonneg_left (hf k) hπ0.le
    show 14 * (2 * Real.pi * (1 : ℕ) / 4 * (![1, 2, 3, 4] : Fin 4 → ℝ) k) + 61 ≤ 160
    push_cast
    linarith
  · obtain rfl := List.mem_singleton.1 hq
    show 160 * (2 : ℝ) ^ (-51 : ℤ) * 1 ≤ 1
    norm_num
  · obtain rfl := List.mem_singleton.1 hq
    have e : ∑ k, Proc.factor ⟨1, 4, 0, 3, none⟩ (exEpochs.w.f k) ^ 2 / exEpochs.w.ν k = 2 := by
      rw [exEpochs_ν]
      show ∑ _k : Fin 4, (1 : ℝ) ^ 2 / 2 = 2
      norm_num
    have hV : 0 < 1 / law 4 0 3 0 := one_div_pos.2 (lt_of_lt_of_le (by norm_num) (exV_le 0).1)
    rw [e, exEpochs_ν]
    rcases List.mem_pair.1 hc with rfl | rfl
    · show (2 : ℝ) ≤ 2 ^ 2 * (∑ k : Fin 4, (wave 4 0 ((![1, 2, 3, 4] : Fin 4 → ℝ) k) * 1) ^ 2 / 2 + 1 / law 4 0 3 0)
      have : ∑ k : Fin 4, (wave 4 0 ((![1, 2, 3, 4] : Fin 4 → ℝ) k) * 1) ^ 2 / 2 = 1 := by
        rw [Finset.sum_congr rfl fun k _ => by rw [(exWave k).1], Fin.sum_univ_four]
        show ((1 : ℝ) * 1) ^ 2 / 2 + (0 * 1) ^ 2 / 2 + (-1 * 1) ^ 2 / 2 + (0 * 1) ^ 2 / 2 = 1
        norm_num
      rw [this]
      linarith
    · show (2 : ℝ) ≤ 2 ^ 2 * (∑ k : Fin 4, (wave 4 1 ((![1, 2, 3, 4] : Fin 4 → ℝ) k) * 1) ^ 2 / 2 + 1 / law 4 0 3 0)
      have : ∑ k : Fin 4, (wave 4 1 ((![1, 2, 3, 4] : Fin 4 → ℝ) k) * 1) ^ 2 / 2 = 1 := by
        rw [Finset.sum_congr rfl fun k _ => by rw [(exWave k).2.1], Fin.sum_univ_four]
        show ((0 : ℝ) * 1) ^ 2 / 2 + (-1 * 1) ^ 2 / 2 + (0 * 1) ^ 2 / 2 + (1 * 1) ^ 2 / 2 = 1
        norm_num
      rw [this]
      linarith

/-- C158 for such a pulsar: numbers and an outcome exist, and each outcome is within `2^-18` of the Gaussian log-likelihood. -/
example (hL : GoodLog L) : (∃ p r, exEpochs.Code A P S p ∧ IsLikelihood A L [p] r) ∧ ∀ p r, exEpochs.Code A P S p → IsLikelihood A L [p] r → ∃ v, r = .ok (.fin v) ∧
    |v - exEpochs.exact.like| ≤ (2 : ℝ) ^ (-18 : ℤ) := by
  have I : CorePsr 4 4 (1 / 2) exEpochs.exact := exEpochs_exact ▸ exJ_core
  constructor
  · obtain ⟨p, hp⟩ := exists_epochs A P S exEpochs_ranges I (by norm_num)
    obtain ⟨r, hr⟩ := exists_likelihood A L [p]
    exact ⟨p, r, hp, hr⟩
  intro p r hp hr
  obtain ⟨v, e, hv⟩ := C158_epochs A L P S hL (N := 4) (K := 4) (μ := 1 / 2) (H := 160) (l := 2) (zs := [exEpochs]) (by norm_num) (by norm_num) (by norm_num) (by norm_num) (by norm_num) (by norm_num) (by
    intro z hz
    rw [List.mem_singleton] at hz
    subst hz
    refine ⟨exEpochs_ranges, fun _ => ?_, exEpochs_phases, I⟩
    show Rep (-1 : ℝ) ∧ |(-1 : ℝ)| ≤ 30
    exact ⟨by simpa using rep_int (-1) (by norm_num), by norm_num⟩) (by simp) (by norm_num) (.cons hp .nil) hr
  refine ⟨v, e, ?_⟩
  have hlog : |Real.log 2| ≤ 1 := by
    rw [abs_of_pos (Real.log_pos (by norm_num))]
    linarith [Real.log_two_lt_d9]
  have hφ : ∀ i : Fin 4, |Real.log (exF i)| ≤ 133 := by
    intro i
    obtain ⟨a, b⟩ := exF_le i
    have l1 := Real.log_le_log (by norm_num) a
    have l2 := Real.log_le_log (lt_of_lt_of_le (by norm_num) a) b
    have l3 := abs_le.1 (log_nat (j := 133) (by norm_num) (by norm_num) : |Real.log ((10 : ℝ) ^ 40)| ≤ (133 : ℕ))
    have l4 := abs_le.1 (log_nat (j := 10) (by norm_num) (by norm_num) : |Real.log (768 : ℝ)| ≤ (10 : ℕ))
    rw [one_div, Real.log_inv] at l1
    push_cast at l3 l4
    exact abs_le.2 ⟨by linarith, by linarith⟩
  have e2 : exEpochs.exact.size ≤ 2100 := by
    rw [exEpochs_exact]
    show (∑ k : Fin 4, (![3, 1, 2, 1] : Fin 4 → ℝ) k ^ 2 / 2) + 2 + (∑ _k : Fin 4, (1 + |Real.log 2|)) + ∑ i : Fin 4, (376 + |Real.log (exF i)|) ≤ 2100
    have h2 : ∑ _k : Fin 4, (1 + |Real.log 2|) ≤ 8 := by
      rw [Fin.sum_univ_four]
      linarith
    have h3 : ∑ i : Fin 4, (376 + |Real.log (exF i)|) ≤ 2036 := by
      rw [Fin.sum_univ_four]
      linarith [hφ 0, hφ 1, hφ 2, hφ 3]
    rw [ex_res4]
    linarith
  simp only [List.map_cons, List.map_nil, List.sum_cons, List.sum_nil, add_zero, List.length_cons, List.length_nil] at hv
  refine hv.trans ?_
  have h3 : (2 : ℝ) ^ (-999 : ℤ) ≤ (2 : ℝ) ^ (-30 : ℤ) := zpow_le_zpow_right₀ (by norm_num) (by norm_num)
  refine (add_le_add (mul_le_mul_of_nonneg_left e2 (by positivity)) h3).trans ?_
  norm_num

end Verif.Ieee
