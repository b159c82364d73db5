import Verif.Props.Rows

/-!
# Property C112: the likelihood depends on the Gaussian processes only through their covariance
-/

namespace Verif.Joined

open Verif Verif.Likelihood Verif.Noise Verif.Combine Finset
open Verif.Orf (Pos)
open Verif.PhiInv (toMatrix)
open Verif.Partition (Svd)

variable {H : Type} [DecidableEq H]

/-- The same pulsar with other Gaussian processes. -/
def SameData (p q : JPsr) : Prop := ∃ gps, q = { p with gps := gps }

/-- The density in terms of functions of numbers. -/
noncomputable def margNat (n k : Nat) (C M : Nat → Nat → ℝ) (r : Nat → ℝ) : ℝ :=
  margLog (toMatrix n C) (Matrix.of fun (i : Fin n) (j : Fin k) => M i j) fun i : Fin n => r i

theorem density_nat (orf : Nat → Pos → Pos → ℝ) (ps : List JPsr) (m : JPsr → Nat) (N : ∀ p : JPsr, Matrix (Fin p.n) (Fin p.n) ℝ)
    (M : ∀ p : JPsr, Matrix (Fin p.n) (Fin (m p)) ℝ) :
    density orf ps m N M = margNat (ps.map JPsr.n).sum (ps.map m).sum
      (fun r s => rect (ps.map fun p => (p.n, p.n, spanned (N p))) r s + gpCov orf ps r s)
      (rect (ps.map fun p => (p.n, m p, spanned (M p))))
      (concatOf (ps.map fun p => ⟨p.n, p.res - p.delays.reduceOption.sum⟩)) := by
  unfold density margNat
  congr 1
  · ext i j
    rw [Matrix.add_apply, jm_rect]
    rfl
  · ext i j
    rw [jm_rect]
    rfl
  · funext i
    rw [jv_rect]

theorem margNat_congr (n k : Nat) (C C' M : Nat → Nat → ℝ) (r : Nat → ℝ) (h : ∀ i j, i < n → j < n → C i j = C' i j) :
    margNat n k C M r = margNat n k C' M r := by
  unfold margNat
  congr 1
  ext i j
  exact h i j i.2 j.2

theorem same_map {α : Type} (F : JPsr → α) (hF : ∀ (p : JPsr) gps, F { p with gps := gps } = F p) {ps qs : List JPsr}
    (h : List.Forall₂ SameData ps qs) : qs.map F = ps.map F := by
  induction h with
  | nil => rfl
  | cons hr _ ih =>
    obtain ⟨g, rfl⟩ := hr
    rw [List.map_cons, List.map_cons, hF, ih]

theorem same_rowStart {ps qs : List JPsr} (h : List.Forall₂ SameData ps qs) (a : Nat) : rowStart qs a = rowStart ps a := by
  unfold rowStart
  rw [List.map_take, List.map_take, same_map JPsr.n (fun _ _ => rfl) h]

/-- The noise of the pulsar can be solved with. -/
def Solvable (p : JPsr) : Prop :=
  ∃ (k : Nat) (N : Matrix (Fin p.n) (Fin p.n) ℝ) (M : Matrix (Fin p.n) (Fin k) ℝ) (o : Nmat p.n ℝ),
    getNdiag p.noise.reduceOption = .ok o ∧ Whole o N M fun _ => True

/-- What the noise of a pulsar is, from its noise alone. -/
theorem noise_choice : ∃ (k : ∀ n : Nat, List (Option (Nmat n ℝ)) → Nat) (N : ∀ n : Nat, List (Option (Nmat n ℝ)) → Matrix (Fin n) (Fin n) ℝ)
    (M : ∀ (n : Nat) (l : List (Option (Nmat n ℝ))), Matrix (Fin n) (Fin (k n l)) ℝ),
    ∀ ps : List JPsr, (∀ p ∈ ps, Solvable p) → NoiseIs ps (fun p => k p.n p.noise) (fun p => N p.n p.noise) fun p => M p.n p.noise := by
  have h : ∀ (n : Nat) (l : List (Option (Nmat n ℝ))), ∃ (k : Nat) (N : Matrix (Fin n) (Fin n) ℝ) (M : Matrix (Fin n) (Fin k) ℝ),
      (∃ (k : Nat) (N : Matrix (Fin n) (Fin n) ℝ) (M : Matrix (Fin n) (Fin k) ℝ) (o : Nmat n ℝ),
        getNdiag l.reduceOption = .ok o ∧ Whole o N M fun _ => True) →
      ∃ o : Nmat n ℝ, getNdiag l.reduceOption = .ok o ∧ Whole o N M fun _ => True := by
    intro n l
    by_cases hh : ∃ (k : Nat) (N : Matrix (Fin n) (Fin n) ℝ) (M : Matrix (Fin n) (Fin k) ℝ) (o : Nmat n ℝ),
        getNdiag l.reduceOption = .ok o ∧ Whole o N M fun _ => True
    · obtain ⟨k, N, M, o, ho⟩ := hh
      exact ⟨k, N, M, fun _ => ⟨o, ho⟩⟩
    · exact ⟨0, 0, 0, fun h' => absurd h' hh⟩
  choose k N M hk using h
  exact ⟨k, N, M, fun ps hps p hp => hk p.n p.noise (hps p hp)⟩

theorem density_same (orf orf' : Nat → Pos → Pos → ℝ) {ps qs : List JPsr} (h : List.Forall₂ SameData ps qs)
    (hc : ∀ r s, r < (ps.map JPsr.n).sum → s < (ps.map JPsr.n).sum → gpCov orf ps r s = gpCov orf' qs r s)
    (k : ∀ n : Nat, List (Option (Nmat n ℝ)) → Nat) (N : ∀ n : Nat, List (Option (Nmat n ℝ)) → Matrix (Fin n) (Fin n) ℝ)
    (M : ∀ (n : Nat) (l : List (Option (Nmat n ℝ))), Matrix (Fin n) (Fin (k n l)) ℝ) :
    density orf ps (fun p => k p.n p.noise) (fun p => N p.n p.noise) (fun p => M p.n p.noise) =
      density orf' qs (fun p => k p.n p.noise) (fun p => N p.n p.noise) fun p => M p.n p.noise := by
  rw [density_nat, density_nat]
  rw [same_map JPsr.n (fun _ _ => rfl) h, same_map (fun p => k p.n p.noise) (fun _ _ => rfl) h,
    same_map (fun p => (p.n, p.n, spanned (N p.n p.noise))) (fun _ _ => rfl) h,
    same_map (fun p => (p.n, k p.n p.noise, spanned (M p.n p.noise))) (fun _ _ => rfl) h,
    same_map (fun p => (⟨p.n, p.res - p.delays.reduceOption.sum⟩ : Σ k, Fin k → ℝ)) (fun _ _ => rfl) h]
  apply margNat_congr
  intro i j hi hj
  rw [hc i j hi hj]

theorem solvable_same {ps qs : List JPsr} (h : List.Forall₂ SameData ps qs) (hs : ∀ p ∈ ps, Solvable p) : ∀ q ∈ qs, Solvable q := by
  induction h with
  | nil => simp
  | cons hr _ ih =>
    obtain ⟨g, rfl⟩ := hr
    intro q hq
    rcases List.mem_cons.1 hq with rfl | hq
    · have := hs _ List.mem_cons_self
      exact this
    · exact ih (fun p hp => hs p (List.mem_cons_of_mem _ hp)) q hq

/-- C112: two arrays that differ only in their Gaussian processes have the same likelihood if the processes have the same
covariance on the stacked residuals. -/
theorem C112_sparse (hash : Col ℝ → H) (svd : ∀ {n : Nat} (M : Matrix (Fin n) (Fin n) ℝ), Svd M) (orf orf' : Nat → Pos → Pos → ℝ)
    (ps qs : List JPsr) (h : List.Forall₂ SameData ps qs) (hp : Apt hash orf ps) (hq : Apt hash orf' qs) (hs : ∀ p ∈ ps, Solvable p)
    (hc : ∀ r s, r < (ps.map JPsr.n).sum → s < (ps.map JPsr.n).sum → gpCov orf ps r s = gpCov orf' qs r s) :
    likelihood hash svd .sparse orf ps = likelihood hash svd .sparse orf' qs := by
  obtain ⟨k, N, M, hN⟩ := noise_choice
  have hs' := solvable_same h hs
  rw [C107_sparse hash svd orf ps hp _ _ _ (hN ps hs), C107_sparse hash svd orf' qs hq _ _ _ (hN qs hs'),
    density_same orf orf' h hc, same_map (fun p => p.logprior.sum) (fun _ _ => rfl) h]

/-- C112 for all methods, also two different ones, if there is one common process and the priors are vectors. -/
theorem C112_methods (hash : Col ℝ → H) (svd : ∀ {n : Nat} (M : Matrix (Fin n) (Fin n) ℝ), Svd M) (method method' : Method)
    (hm : method ≠ .other) (hm' : method' ≠ .other) (orf orf' : Nat → Pos → Pos → ℝ)
    (ps qs : List JPsr) (h : List.Forall₂ SameData ps qs) (hp : Apt hash orf ps) (hq : Apt hash orf' qs) (c c' : Nat) (h1 : OneClass ps c)
    (h1' : OneClass qs c') (hs : ∀ p ∈ ps, Solvable p)
    (hc : ∀ r s, r < (ps.map JPsr.n).sum → s < (ps.map JPsr.n).sum → gpCov orf ps r s = gpCov orf' qs r s) :
    likelihood hash svd method orf ps = likelihood hash svd method' orf' qs := by
  obtain ⟨k, N, M, hN⟩ := noise_choice
  have hs' := solvable_same h hs
  rw [C107_methods hash svd method hm orf ps hp c h1 _ _ _ (hN ps hs), C107_methods hash svd method' hm' orf' qs hq c' h1' _ _ _ (hN qs hs'),
    density_same orf orf' h hc, same_map (fun p => p.logprior.sum) (fun _ _ => rfl) h]

/-! ## The order of the signals -/

/-- Every row belongs to a pulsar. -/
theorem row_of (ps : List JPsr) : ∀ r, r < (ps.map JPsr.n).sum → ∃ (a : Nat) (p : JPsr) (i : Nat), ps[a]? = some p ∧ i < p.n ∧ r = rowStart ps a + i := by
  induction ps with
  | nil => intro r h; simp at h
  | cons p t ih =>
    intro r h
    by_cases hr : r < p.n
    · exact ⟨0, p, r, rfl, hr, by simp [rowStart]⟩
    · obtain ⟨a, q, i, h1, h2, h3⟩ := ih (r - p.n) (by simp only [List.map_cons, List.sum_cons] at h; omega)
      refine ⟨a + 1, q, i, by simpa using h1, h2, ?_⟩
      simp only [rowStart, List.take_succ_cons, List.map_cons, List.sum_cons] at h3 ⊢
      omega

/-- The same pulsar with its Gaussian processes in another order. -/
def Reordered (p q : JPsr) : Prop := ∃ gps, q = { p with gps := gps } ∧ p.gps.Perm gps

theorem reordered_cov (orf : Nat → Pos → Pos → ℝ) {ps qs : List JPsr} (h : List.Forall₂ Reordered ps qs) (r s : Nat)
    (hr : r < (ps.map JPsr.n).sum) (hs : s < (ps.map JPsr.n).sum) : gpCov orf ps r s = gpCov orf qs r s := by
  have hsame : List.Forall₂ SameData ps qs := h.imp fun _ _ ⟨g, e, _⟩ => ⟨g, e⟩
  obtain ⟨a, p, i, ha, hi, rfl⟩ := row_of ps r hr
  obtain ⟨b, q, j, hb, hj, rfl⟩ := row_of ps s hs
  have get : ∀ (a : Nat) (p : JPsr), ps[a]? = some p → ∃ gps, qs[a]? = some { p with gps := gps } ∧ p.gps.Perm gps := by
    intro a p hp
    obtain ⟨ha, rfl⟩ := List.getElem?_eq_some_iff.1 hp
    have ha' : a < qs.length := by rw [← h.length_eq]; exact ha
    obtain ⟨g, e, hg⟩ := h.get ha ha'
    have e : qs[a] = { ps[a] with gps := g } := e
    exact ⟨g, by rw [List.getElem?_eq_getElem ha', e], hg⟩
  obtain ⟨g, ha', hg⟩ := get a p ha
  obtain ⟨g', hb', hg'⟩ := get b q hb
  rw [gpCov_rows orf ps a b p q ha hb i j hi hj, ← same_rowStart hsame, ← same_rowStart hsame,
    gpCov_rows orf qs a b _ _ ha' hb' i j hi hj]
  congr 1
  · split
    · exact ((hg.filter _).map _).sum_eq
    · rfl
  · rw [((hg.filter _).map _).sum_eq]
    congr 1
    apply List.map_congr_left
    intro x _
    exact ((hg'.filter _).map _).sum_eq

/-- C112: the order of the signals of a pulsar does not matter. -/
theorem C112_order (hash : Col ℝ → H) (svd : ∀ {n : Nat} (M : Matrix (Fin n) (Fin n) ℝ), Svd M) (orf : Nat → Pos → Pos → ℝ)
    (ps qs : List JPsr) (h : List.Forall₂ Reordered ps qs) (hp : Apt hash orf ps) (hq : Apt hash orf qs) (hs : ∀ p ∈ ps, Solvable p) :
    likelihood hash svd .sparse orf ps = likelihood hash svd .sparse orf qs :=
  C112_sparse hash svd orf orf ps qs (h.imp fun _ _ ⟨g, e, _⟩ => ⟨g, e⟩) hp hq hs fun r s hr hs' => reordered_cov orf h r s hr hs'

end Verif.Joined
