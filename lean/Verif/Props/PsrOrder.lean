import Verif.Props.Cases

/-!
# Property C123: the order of the pulsars does not matter, and pulsars without a common process count separately
-/

namespace Verif.Joined

open Verif Verif.Likelihood Verif.Noise Verif.Combine Verif.Joint Finset
open Verif.Orf (Pos orfMatrix)
open Verif.PhiInv (toMatrix)
open Verif.Partition (Svd)

variable {H : Type} [DecidableEq H]

/-! ## Positions in lists -/

/-- `e` sends the positions of `l` to positions of `l'` with the same element, different ones to different ones. -/
structure Into {α : Type} (l l' : List α) (e : Nat → Nat) : Prop where
  get : ∀ (a : Nat) (x : α), l[a]? = some x → l'[e a]? = some x
  inj : ∀ a b : Nat, a < l.length → b < l.length → e a = e b → a = b

theorem Into.trans {α : Type} {l l' l'' : List α} {e f : Nat → Nat} (h : Into l l' e) (h' : Into l' l'' f) : Into l l'' (f ∘ e) where
  get a x ha := h'.get _ x (h.get a x ha)
  inj a b ha hb hab := by
    refine h.inj a b ha hb (h'.inj _ _ ?_ ?_ hab)
    · exact (List.getElem?_eq_some_iff.1 (h.get a _ (List.getElem?_eq_getElem ha))).1
    · exact (List.getElem?_eq_some_iff.1 (h.get b _ (List.getElem?_eq_getElem hb))).1

theorem perm_into {α : Type} {l l' : List α} (h : l.Perm l') : ∃ e, Into l l' e := by
  induction h with
  | nil => exact ⟨id, ⟨fun _ _ h => h, fun _ _ _ _ h => h⟩⟩
  | cons x _ ih =>
    obtain ⟨e, he⟩ := ih
    refine ⟨fun a => if a = 0 then 0 else e (a - 1) + 1, ⟨fun a y ha => ?_, fun a b ha hb hab => ?_⟩⟩
    · cases a with
      | zero => simpa using ha
      | succ a =>
        have := he.get a y (by simpa using ha)
        simpa using this
    · simp only [List.length_cons] at ha hb
      cases a with
      | zero =>
        cases b with
        | zero => rfl
        | succ b => simp at hab
      | succ a =>
        cases b with
        | zero => simp at hab
        | succ b =>
          have := he.inj a b (by omega) (by omega) (by simpa using hab)
          omega
  | swap x y l =>
    refine ⟨fun a => if a = 0 then 1 else if a = 1 then 0 else a, ⟨fun a z ha => ?_, fun a b _ _ hab => ?_⟩⟩
    · match a, ha with
      | 0, ha => simpa using ha
      | 1, ha => simpa using ha
      | a + 2, ha => simpa using ha
    · match a, b, hab with
      | 0, 0, _ => rfl
      | 0, 1, h => simp at h
      | 0, b + 2, h => simp at h
      | 1, 0, h => simp at h
      | 1, 1, _ => rfl
      | 1, b + 2, h => simp at h
      | a + 2, 0, h => simp at h
      | a + 2, 1, h => simp at h
      | a + 2, b + 2, h => simpa using h
  | trans _ _ ih1 ih2 =>
    obtain ⟨e, he⟩ := ih1
    obtain ⟨f, hf⟩ := ih2
    exact ⟨f ∘ e, he.trans hf⟩

theorem left_into {α : Type} (l l' : List α) : Into l (l ++ l') id where
  get a x h := by
    have ha := (List.getElem?_eq_some_iff.1 h).1
    rw [id, List.getElem?_append_left ha, h]
  inj _ _ _ _ h := h

theorem right_into {α : Type} (l l' : List α) : Into l' (l ++ l') (l.length + ·) where
  get a x h := by
    show (l ++ l')[l.length + a]? = _
    rw [List.getElem?_append_right (by omega), Nat.add_sub_cancel_left, h]
  inj a b _ _ h := by
    have h : l.length + a = l.length + b := h
    omega

/-- The overlaps of some of the positions. -/
theorem orf_into (f : Pos → Pos → ℝ) {l l' : List (Kernel.Arr ℝ × Pos)} {e : Nat → Nat} (h : Into l l' e)
    (hp : (orfMatrix f fun u : Fin l'.length => (l'[u]).2).PosDef) : (orfMatrix f fun u : Fin l.length => (l[u]).2).PosDef := by
  have lt : ∀ u : Fin l.length, e u < l'.length := fun u =>
    (List.getElem?_eq_some_iff.1 (h.get u _ (List.getElem?_eq_getElem u.2))).1
  have val : ∀ u : Fin l.length, l'[e u]'(lt u) = l[u] := fun u =>
    (List.getElem?_eq_some_iff.1 (h.get u _ (List.getElem?_eq_getElem u.2))).2
  have := hp.submatrix (e := fun u : Fin l.length => (⟨e u, lt u⟩ : Fin l'.length)) fun u v huv =>
    Fin.ext (h.inj u v u.2 v.2 (Fin.mk.inj_iff.1 huv))
  convert this using 1
  ext u v
  simp only [orfMatrix, Matrix.submatrix_apply, Matrix.of_apply]
  show f (l[u]).2 (l[v]).2 = f (l'[e u]'(lt u)).2 (l'[e v]'(lt v)).2
  rw [val u, val v]

/-- Some of the pulsars of an array. -/
theorem Apt.part {hash : Col ℝ → H} {orf : Nat → Pos → Pos → ℝ} {ps qs : List JPsr} (h : Apt hash orf ps) (hm : ∀ q ∈ qs, q ∈ ps)
    (hi : ∀ c, ∃ e, Into (ofClass qs c) (ofClass ps c) e) : Apt hash orf qs where
  ok q hq := h.ok q (hm q hq)
  ordered q hq := h.ordered q (hm q hq)
  hash q hq := h.hash q (hm q hq)
  some q hq := h.some q (hm q hq)
  pos q hq := h.pos q (hm q hq)
  same c u hu v hv := by
    obtain ⟨e, he⟩ := hi c
    have mem : ∀ u ∈ ofClass qs c, u ∈ ofClass ps c := by
      intro u hu
      obtain ⟨i, hi, rfl⟩ := List.getElem_of_mem hu
      exact List.mem_of_getElem? (he.get i _ (List.getElem?_eq_getElem hi))
    exact h.same c u (mem u hu) v (mem v hv)
  orf c := by
    obtain ⟨e, he⟩ := hi c
    exact orf_into (orf c) he (h.orf c)

theorem Apt.perm {hash : Col ℝ → H} {orf : Nat → Pos → Pos → ℝ} {ps qs : List JPsr} (h : Apt hash orf ps) (hp : ps.Perm qs) :
    Apt hash orf qs :=
  h.part (fun _ hq => hp.mem_iff.2 hq) fun _ => perm_into (hp.symm.flatMap_right _)

theorem ofClass_append (ps qs : List JPsr) (c : Nat) : ofClass (ps ++ qs) c = ofClass ps c ++ ofClass qs c := by
  unfold ofClass
  rw [List.flatMap_append]

theorem Apt.left {hash : Col ℝ → H} {orf : Nat → Pos → Pos → ℝ} {ps qs : List JPsr} (h : Apt hash orf (ps ++ qs)) : Apt hash orf ps :=
  h.part (fun _ hq => List.mem_append_left _ hq) fun c => ⟨_, ofClass_append ps qs c ▸ left_into _ _⟩

theorem Apt.right {hash : Col ℝ → H} {orf : Nat → Pos → Pos → ℝ} {ps qs : List JPsr} (h : Apt hash orf (ps ++ qs)) : Apt hash orf qs :=
  h.part (fun _ hq => List.mem_append_right _ hq) fun c => ⟨_, ofClass_append ps qs c ▸ right_into _ _⟩

/-! ## Rows -/

/-- Where the rows of element `a` begin if every element has `f` rows. -/
def start (f : JPsr → Nat) (ps : List JPsr) (a : Nat) : Nat := ((ps.take a).map f).sum

theorem start_le (f : JPsr → Nat) (ps : List JPsr) (a b : Nat) (p : JPsr) (ha : ps[a]? = some p) (hab : a < b) :
    start f ps a + f p ≤ start f ps b := by
  induction ps generalizing a b with
  | nil => simp at ha
  | cons q t ih =>
    cases b with
    | zero => omega
    | succ b =>
      cases a with
      | zero =>
        have : q = p := by simpa using ha
        subst this
        simp [start]
      | succ a =>
        have := ih a b (by simpa using ha) (by omega)
        simp only [start, List.take_succ_cons, List.map_cons, List.sum_cons] at this ⊢
        omega

theorem start_lt (f : JPsr → Nat) (ps : List JPsr) (a : Nat) (p : JPsr) (ha : ps[a]? = some p) (i : Nat) (hi : i < f p) :
    start f ps a + i < (ps.map f).sum := by
  have hl := (List.getElem?_eq_some_iff.1 ha).1
  have := start_le f ps a ps.length p ha hl
  have e : start f ps ps.length = (ps.map f).sum := by rw [start, List.take_length]
  omega

theorem start_inj (f : JPsr → Nat) (ps : List JPsr) (a b : Nat) (p q : JPsr) (ha : ps[a]? = some p) (hb : ps[b]? = some q) (i j : Nat)
    (hi : i < f p) (hj : j < f q) (h : start f ps a + i = start f ps b + j) : a = b ∧ i = j := by
  rcases Nat.lt_trichotomy a b with hlt | rfl | hlt
  · have := start_le f ps a b p ha hlt
    omega
  · exact ⟨rfl, by omega⟩
  · have := start_le f ps b a q hb hlt
    omega

theorem start_of (f : JPsr → Nat) (ps : List JPsr) : ∀ r, r < (ps.map f).sum →
    ∃ (a : Nat) (p : JPsr) (i : Nat), ps[a]? = some p ∧ i < f p ∧ r = start f ps a + i := by
  induction ps with
  | nil => intro r h; simp at h
  | cons p t ih =>
    intro r h
    by_cases hr : r < f p
    · exact ⟨0, p, r, rfl, hr, by simp [start]⟩
    · obtain ⟨a, q, i, h1, h2, h3⟩ := ih (r - f p) (by simp only [List.map_cons, List.sum_cons] at h; omega)
      refine ⟨a + 1, q, i, by simpa using h1, h2, ?_⟩
      simp only [start, List.take_succ_cons, List.map_cons, List.sum_cons] at h3 ⊢
      omega

/-- The rows move with their pulsars. -/
theorem row_equiv (f : JPsr → Nat) {ps qs : List JPsr} (hp : ps.Perm qs) {e : Nat → Nat} (he : Into ps qs e) :
    ∃ σ : Fin (ps.map f).sum ≃ Fin (qs.map f).sum, ∀ (r : Fin (ps.map f).sum) (a : Nat) (p : JPsr) (i : Nat), ps[a]? = some p → i < f p →
      (r : Nat) = start f ps a + i → (σ r : Nat) = start f qs (e a) + i := by
  have h := fun r : Fin (ps.map f).sum => start_of f ps r r.2
  choose A P I hA hI hr using h
  let σ : Fin (ps.map f).sum → Fin (qs.map f).sum := fun r => ⟨start f qs (e (A r)) + I r, start_lt f qs _ (P r) (he.get _ _ (hA r)) _ (hI r)⟩
  have hinj : Function.Injective σ := by
    intro r s hrs
    have hrs : start f qs (e (A r)) + I r = start f qs (e (A s)) + I s := Fin.mk.inj_iff.1 hrs
    obtain ⟨h1, h2⟩ := start_inj f qs _ _ _ _ (he.get _ _ (hA r)) (he.get _ _ (hA s)) _ _ (hI r) (hI s) hrs
    have h3 := he.inj _ _ (List.getElem?_eq_some_iff.1 (hA r)).1 (List.getElem?_eq_some_iff.1 (hA s)).1 h1
    exact Fin.ext (by rw [hr r, hr s, h3, h2])
  have hbij : Function.Bijective σ := by
    rw [Fintype.bijective_iff_injective_and_card]
    refine ⟨hinj, ?_⟩
    rw [Fintype.card_fin, Fintype.card_fin, (hp.map f).sum_eq]
  refine ⟨Equiv.ofBijective σ hbij, fun r a p i ha hi hra => ?_⟩
  obtain ⟨h1, h2⟩ := start_inj f ps _ _ _ _ (hA r) ha _ _ (hI r) hi ((hr r).symm.trans hra)
  show start f qs (e (A r)) + I r = _
  rw [h1, h2]

/-- Entries of a matrix of blocks. -/
theorem rect_rows (ps : List JPsr) (m : JPsr → Nat) (A : JPsr → Nat → Nat → ℝ) (a b : Nat) (p q : JPsr) (ha : ps[a]? = some p)
    (hb : ps[b]? = some q) (i j : Nat) (hi : i < p.n) (hj : j < m q) :
    rect (ps.map fun p => (p.n, m p, A p)) (start JPsr.n ps a + i) (start m ps b + j) = if a = b then A p i j else 0 := by
  have h := rect_at (ps.map fun p => (p.n, m p, A p)) b (q.n, m q, A q) (start JPsr.n ps a + i) j (by rw [List.getElem?_map, hb]; rfl) hj
    (by rw [List.map_map]; exact start_lt JPsr.n ps a p ha i hi)
  have e1 : (((ps.map fun p => (p.n, m p, A p)).take b).map fun b : Nat × Nat × (Nat → Nat → ℝ) => b.1).sum = start JPsr.n ps b := by
    rw [← List.map_take, List.map_map]; rfl
  have e2 : (((ps.map fun p => (p.n, m p, A p)).take b).map fun b : Nat × Nat × (Nat → Nat → ℝ) => b.2.1).sum = start m ps b := by
    rw [← List.map_take, List.map_map]; rfl
  rw [e1, e2] at h
  rw [h]
  by_cases hab : a = b
  · subst hab
    rw [ha] at hb
    cases hb
    rw [if_pos rfl, if_pos ⟨by omega, by simp only; omega⟩, Nat.add_sub_cancel_left]
  · rw [if_neg hab, if_neg]
    exact not_row ps a b p q ha hb (Ne.symm hab) i hi

theorem concat_rows (ps : List JPsr) (v : ∀ p : JPsr, Fin p.n → ℝ) : ∀ (a : Nat) (p : JPsr), ps[a]? = some p → ∀ (i : Nat) (hi : i < p.n),
    concatOf (ps.map fun p => ⟨p.n, v p⟩) (start JPsr.n ps a + i) = v p ⟨i, hi⟩ := by
  induction ps with
  | nil => intro a p h; simp at h
  | cons q t ih =>
    intro a p ha i hi
    cases a with
    | zero =>
      have : q = p := by simpa using ha
      subst this
      simp [start, concatOf, hi]
    | succ a =>
      have := ih a p (by simpa using ha) i hi
      have e : start JPsr.n (q :: t) (a + 1) + i = q.n + (start JPsr.n t a + i) := by
        simp only [start, List.take_succ_cons, List.map_cons, List.sum_cons]
        omega
      rw [e, List.map_cons, concatOf]
      simp only
      rw [dif_neg (by omega), Nat.add_sub_cancel_left, this]

/-! ## The order of the pulsars -/

open Matrix in
/-- The density of residuals in another order. -/
theorem margLog_equiv {n n' m m' : Nat} (σ : Fin n ≃ Fin n') (τ : Fin m ≃ Fin m') (C : Matrix (Fin n) (Fin n) ℝ)
    (C' : Matrix (Fin n') (Fin n') ℝ) (M : Matrix (Fin n) (Fin m) ℝ) (M' : Matrix (Fin n') (Fin m') ℝ) (r : Fin n → ℝ) (r' : Fin n' → ℝ)
    (hC : ∀ i j, C i j = C' (σ i) (σ j)) (hM : ∀ i j, M i j = M' (σ i) (τ j)) (hr : ∀ i, r i = r' (σ i)) :
    margLog C M r = margLog C' M' r' := by
  have eC : C = C'.submatrix σ σ := by ext i j; exact hC i j
  have eM : M = M'.submatrix σ τ := by ext i j; exact hM i j
  have er : r = r' ∘ σ := by funext i; exact hr i
  have em : m = m' := by simpa using Fintype.card_congr τ
  have eG : Mᵀ * C⁻¹ * M = (M'ᵀ * C'⁻¹ * M').submatrix τ τ := by
    rw [eC, eM, inv_submatrix_equiv, transpose_submatrix, submatrix_mul_equiv, submatrix_mul_equiv]
  have eP : projN C M = (projN C' M').submatrix σ σ := by
    unfold projN
    rw [eG, inv_submatrix_equiv, eC, eM, inv_submatrix_equiv, transpose_submatrix, submatrix_mul_equiv, submatrix_mul_equiv,
      submatrix_mul_equiv, submatrix_mul_equiv]
    rfl
  unfold margLog
  rw [eP, eG, eC, det_submatrix_equiv_self, det_submatrix_equiv_self, er, em]
  congr 4
  have := submatrix_mulVec_equiv (projN C' M') (r' ∘ σ) σ σ
  rw [this, Function.comp_assoc]
  simp only [Equiv.self_comp_symm, Function.comp_id]
  exact comp_equiv_dotProduct_comp_equiv r' _ σ

theorem density_perm (orf : Nat → Pos → Pos → ℝ) {ps qs : List JPsr} (hp : ps.Perm qs) (m : JPsr → Nat)
    (N : ∀ p : JPsr, Matrix (Fin p.n) (Fin p.n) ℝ) (M : ∀ p : JPsr, Matrix (Fin p.n) (Fin (m p)) ℝ) :
    density orf ps m N M = density orf qs m N M := by
  obtain ⟨e, he⟩ := perm_into hp
  obtain ⟨σ, hσ⟩ := row_equiv JPsr.n hp he
  obtain ⟨τ, hτ⟩ := row_equiv m hp he
  have hee : ∀ a b p q, ps[a]? = some p → ps[b]? = some q → (a = b ↔ e a = e b) := fun a b p q ha hb =>
    ⟨fun h => by rw [h], fun h => he.inj a b (List.getElem?_eq_some_iff.1 ha).1 (List.getElem?_eq_some_iff.1 hb).1 h⟩
  rw [density_nat, density_nat]
  unfold margNat
  refine margLog_equiv σ τ _ _ _ _ _ _ (fun r s => ?_) (fun r s => ?_) fun r => ?_
  · obtain ⟨a, p, i, ha, hi, hr⟩ := start_of JPsr.n ps r r.2
    obtain ⟨b, q, j, hb, hj, hs⟩ := start_of JPsr.n ps s s.2
    simp only [toMatrix, Matrix.of_apply]
    rw [hσ r a p i ha hi hr, hσ s b q j hb hj hs, hr, hs, rect_rows ps JPsr.n _ a b p q ha hb i j hi hj,
      rect_rows qs JPsr.n _ (e a) (e b) p q (he.get _ _ ha) (he.get _ _ hb) i j hi hj]
    rw [show gpCov orf ps (start JPsr.n ps a + i) (start JPsr.n ps b + j) = _ from gpCov_rows orf ps a b p q ha hb i j hi hj,
      show gpCov orf qs (start JPsr.n qs (e a) + i) (start JPsr.n qs (e b) + j) = _ from
        gpCov_rows orf qs (e a) (e b) p q (he.get _ _ ha) (he.get _ _ hb) i j hi hj]
    simp only [hee a b p q ha hb]
  · obtain ⟨a, p, i, ha, hi, hr⟩ := start_of JPsr.n ps r r.2
    obtain ⟨b, q, j, hb, hj, hs⟩ := start_of m ps s s.2
    simp only [Matrix.of_apply]
    rw [hσ r a p i ha hi hr, hτ s b q j hb hj hs, hr, hs, rect_rows ps m (fun p => spanned (M p)) a b p q ha hb i j hi hj,
      rect_rows qs m (fun p => spanned (M p)) (e a) (e b) p q (he.get _ _ ha) (he.get _ _ hb) i j hi hj]
    simp only [hee a b p q ha hb]
  · obtain ⟨a, p, i, ha, hi, hr⟩ := start_of JPsr.n ps r r.2
    rw [hσ r a p i ha hi hr, hr, concat_rows ps (fun p => p.res - p.delays.reduceOption.sum) a p ha i hi,
      concat_rows qs (fun p => p.res - p.delays.reduceOption.sum) (e a) p (he.get _ _ ha) i hi]

/-- The ways of inverting the prior that C107 covers: the sparse one always, all of them for one common process, the cliques for
processes that share their columns alike in all pulsars. -/
def Covered (method : Method) (ps : List JPsr) : Prop :=
  method = .sparse ∨ (method ≠ .other ∧ ∃ c, OneClass ps c) ∨ (method = .cliques ∧ SameCols ps)

theorem Covered.part {method : Method} {ps qs : List JPsr} (h : Covered method ps) (hm : ∀ q ∈ qs, q ∈ ps) : Covered method qs := by
  rcases h with h | ⟨h, c, h1⟩ | ⟨h, h1⟩
  · exact .inl h
  · exact .inr (.inl ⟨h, c, fun q hq => h1.vec q (hm q hq), fun q hq => h1.cls q (hm q hq), fun q hq => h1.once q (hm q hq)⟩)
  · exact .inr (.inr ⟨h, fun q hq => h1.vec q (hm q hq), fun q hq => h1.fixed q (hm q hq), fun q hq => h1.combine q (hm q hq),
      fun q hq q' hq' => h1.share q (hm q hq) q' (hm q' hq')⟩)

theorem likelihood_covered (hash : Col ℝ → H) (svd : ∀ {n : Nat} (M : Matrix (Fin n) (Fin n) ℝ), Svd M) (method : Method)
    (orf : Nat → Pos → Pos → ℝ) (ps : List JPsr) (hm : Covered method ps) (h : Apt hash orf ps) (m : JPsr → Nat)
    (N : ∀ p : JPsr, Matrix (Fin p.n) (Fin p.n) ℝ) (M : ∀ p : JPsr, Matrix (Fin p.n) (Fin (m p)) ℝ) (hN : NoiseIs ps m N M) :
    likelihood hash svd method orf ps = .ok (some (density orf ps m N M + (ps.map fun p => p.logprior.sum).sum)) := by
  rcases hm with rfl | ⟨hm, c, h1⟩ | ⟨rfl, h1⟩
  · exact C107_sparse hash svd orf ps h m N M hN
  · exact C107_methods hash svd method hm orf ps h c h1 m N M hN
  · exact C107_cliques hash svd orf ps h h1 m N M hN

/-- C123: the likelihood of an array does not depend on the order of its pulsars, nor on how the prior is inverted. -/
theorem C123_order (hash : Col ℝ → H) (svd : ∀ {n : Nat} (M : Matrix (Fin n) (Fin n) ℝ), Svd M) (method method' : Method)
    (orf : Nat → Pos → Pos → ℝ) (ps qs : List JPsr) (hp : ps.Perm qs) (h : Apt hash orf ps) (hm : Covered method ps)
    (hm' : Covered method' ps) (hs : ∀ p ∈ ps, Solvable p) :
    likelihood hash svd method orf ps = likelihood hash svd method' orf qs := by
  obtain ⟨k, N, M, hN⟩ := noise_choice
  have hmem : ∀ q ∈ qs, q ∈ ps := fun q hq => hp.mem_iff.2 hq
  rw [likelihood_covered hash svd method orf ps hm h _ _ _ (hN ps hs),
    likelihood_covered hash svd method' orf qs (hm'.part hmem) (h.perm hp) _ _ _ (hN qs fun q hq => hs q (hmem q hq)),
    density_perm orf hp, (hp.map _).sum_eq]

/-! ## Groups of pulsars -/

/-- No process is common to a pulsar of one group and one of the other, or only one without overlap between them. -/
def Unlinked (orf : Nat → Pos → Pos → ℝ) (ps qs : List JPsr) : Prop :=
  ∀ p ∈ ps, ∀ q ∈ qs, ∀ g ∈ p.gps, ∀ g' ∈ q.gps, g.basis ≠ none → g'.basis ≠ none → ∀ c, g.cls = some c → g'.cls = some c →
    orf c p.pos q.pos = 0

theorem rect_append (l l' : List (Nat × Nat × (Nat → Nat → ℝ))) : ∀ i j, rect (l ++ l') i j =
    if i < (l.map fun b => b.1).sum then (if j < (l.map fun b => b.2.1).sum then rect l i j else 0)
    else if j < (l.map fun b => b.2.1).sum then 0 else rect l' (i - (l.map fun b => b.1).sum) (j - (l.map fun b => b.2.1).sum) := by
  induction l with
  | nil => intro i j; simp
  | cons b t ih =>
    intro i j
    simp only [List.cons_append, rect, List.map_cons, List.sum_cons]
    rw [ih]
    split_ifs <;> first | rfl | omega | rw [Nat.sub_sub, Nat.sub_sub]

theorem concat_append (l l' : List (Σ k, Fin k → ℝ)) : ∀ i, concatOf (l ++ l') i =
    if i < (l.map fun b => b.1).sum then concatOf l i else concatOf l' (i - (l.map fun b => b.1).sum) := by
  induction l with
  | nil => intro i; simp
  | cons b t ih =>
    obtain ⟨k, v⟩ := b
    intro i
    simp only [List.cons_append, concatOf, List.map_cons, List.sum_cons]
    rw [ih]
    by_cases hi : i < k
    · rw [dif_pos hi, dif_pos hi, if_pos (by omega)]
    · rw [dif_neg hi, dif_neg hi]
      by_cases hi' : i - k < (t.map fun b => b.1).sum
      · rw [if_pos hi', if_pos (by omega)]
      · rw [if_neg hi', if_neg (by omega), Nat.sub_sub]

open Matrix in
/-- The density of independent groups. -/
theorem margLog_jm {α : Type} (n k : α → Nat) (C : ∀ a, Matrix (Fin (n a)) (Fin (n a)) ℝ) (M : ∀ a, Matrix (Fin (n a)) (Fin (k a)) ℝ)
    (r : ∀ a, Fin (n a) → ℝ) (l : List α) (hC : ∀ a ∈ l, (C a).PosDef) (hM : ∀ a ∈ l, Function.Injective (M a).mulVec) :
    margLog (jm n n C l) (jm n k M l) (jv n r l) = (l.map fun a => margLog (C a) (M a) (r a)).sum := by
  have hG : ∀ a ∈ l, ((M a)ᵀ * (C a)⁻¹ * M a).PosDef := fun a ha => gram_posDef (C a) (M a) (hC a ha) (hM a ha)
  have hproj : projN (jm n n C l) (jm n k M l) = jm n n (fun a => projN (C a) (M a)) l := by
    unfold projN
    rw [jm_inv _ _ hC, jm_transpose, jm_mul, jm_mul, jm_mul, jm_inv _ _ hG, jm_mul, jm_mul, jm_mul, jm_sub]
  unfold margLog
  rw [hproj, jm_inv _ _ hC, jm_transpose, jm_mul, jm_mul, jm_det, jm_det, sum_log _ _ fun a ha => (hC a ha).det_pos,
    sum_log _ _ fun a ha => (hG a ha).det_pos, jm_mulVec, jv_dot]
  clear hproj hG hM hC
  induction l with
  | nil => simp
  | cons a t ih =>
    simp only [List.map_cons, List.sum_cons, Nat.cast_add]
    rw [← ih]
    ring

theorem start_append_left (f : JPsr → Nat) (ps qs : List JPsr) (a : Nat) (ha : a < ps.length) : start f (ps ++ qs) a = start f ps a := by
  unfold start
  rw [List.take_append_of_le_length (by omega)]

theorem start_append_right (f : JPsr → Nat) (ps qs : List JPsr) (a : Nat) :
    start f (ps ++ qs) (ps.length + a) = (ps.map f).sum + start f qs a := by
  unfold start
  rw [List.take_length_add_append, List.map_append, List.sum_append]

/-- The covariance of the processes of two groups. -/
theorem gpCov_append (hash : Col ℝ → H) (orf : Nat → Pos → Pos → ℝ) (ps qs : List JPsr) (h : Apt hash orf (ps ++ qs))
    (hu : Unlinked orf ps qs) (i j : Nat) (hi : i < ((ps ++ qs).map JPsr.n).sum) (hj : j < ((ps ++ qs).map JPsr.n).sum) :
    gpCov orf (ps ++ qs) i j =
      if i < (ps.map JPsr.n).sum then (if j < (ps.map JPsr.n).sum then gpCov orf ps i j else 0)
      else if j < (ps.map JPsr.n).sum then 0 else gpCov orf qs (i - (ps.map JPsr.n).sum) (j - (ps.map JPsr.n).sum) := by
  have find : ∀ r, r < ((ps ++ qs).map JPsr.n).sum → (∃ (a : Nat) (p : JPsr) (i : Nat), ps[a]? = some p ∧ i < p.n ∧ r = start JPsr.n ps a + i ∧
        r < (ps.map JPsr.n).sum ∧ (ps ++ qs)[a]? = some p ∧ r = rowStart (ps ++ qs) a + i) ∨
      ∃ (a : Nat) (p : JPsr) (i : Nat), qs[a]? = some p ∧ i < p.n ∧ r = (ps.map JPsr.n).sum + (start JPsr.n qs a + i) ∧
        (ps ++ qs)[ps.length + a]? = some p ∧ r = rowStart (ps ++ qs) (ps.length + a) + i := by
    intro r hr
    by_cases hlt : r < (ps.map JPsr.n).sum
    · left
      obtain ⟨a, p, i, ha, hi, e⟩ := start_of JPsr.n ps r hlt
      have hal := (List.getElem?_eq_some_iff.1 ha).1
      refine ⟨a, p, i, ha, hi, e, hlt, by rw [List.getElem?_append_left hal, ha], ?_⟩
      rw [show rowStart (ps ++ qs) a = start JPsr.n (ps ++ qs) a from rfl, start_append_left JPsr.n ps qs a hal]
      exact e
    · right
      rw [List.map_append, List.sum_append] at hr
      obtain ⟨a, p, i, ha, hi, e⟩ := start_of JPsr.n qs (r - (ps.map JPsr.n).sum) (by omega)
      refine ⟨a, p, i, ha, hi, by omega, by rw [List.getElem?_append_right (by omega), Nat.add_sub_cancel_left, ha], ?_⟩
      rw [show rowStart (ps ++ qs) (ps.length + a) = start JPsr.n (ps ++ qs) (ps.length + a) from rfl, start_append_right]
      omega
  have link : ∀ p ∈ ps, ∀ q ∈ qs, ∀ (c : Nat), ∀ g ∈ p.gps, ∀ g' ∈ q.gps, g.basis ≠ none → g'.basis ≠ none → g.cls = some c → g'.cls = some c →
      orf c p.pos q.pos = 0 ∧ orf c q.pos p.pos = 0 := by
    intro p hp q hq c g hg g' hg' hb hb' hc hc'
    have h0 := hu p hp q hq g hg g' hg' hb hb' c hc hc'
    refine ⟨h0, ?_⟩
    rw [← h0]
    exact h.symm (mem_ofClass (List.mem_append_right _ hq) hg' hb' hc') (mem_ofClass (List.mem_append_left _ hp) hg hb hc)
  rcases find i hi with ⟨a, p, i', ha, hi', e, hlt, ha', e'⟩ | ⟨a, p, i', ha, hi', e, ha', e'⟩
  · rcases find j hj with ⟨b, q, j', hb, hj', f, hlt2, hb', f'⟩ | ⟨b, q, j', hb, hj', f, hb', f'⟩
    · rw [if_pos hlt, if_pos hlt2]
      conv_lhs => rw [e', f']
      rw [gpCov_rows orf _ a b p q ha' hb' i' j' hi' hj', e, f]
      exact (gpCov_rows orf ps a b p q ha hb i' j' hi' hj').symm
    · rw [if_pos hlt, if_neg (by omega)]
      conv_lhs => rw [e', f']
      have hal := (List.getElem?_eq_some_iff.1 ha).1
      rw [gpCov_rows orf _ a _ p q ha' hb' i' j' hi' hj', if_neg (by omega), zero_add]
      apply List.sum_eq_zero
      intro x hx
      obtain ⟨g, hg, rfl⟩ := List.mem_map.1 hx
      apply List.sum_eq_zero
      intro y hy
      obtain ⟨g', hg', rfl⟩ := List.mem_map.1 hy
      obtain ⟨m1, b1⟩ := List.mem_filter.1 hg
      obtain ⟨m2, b2⟩ := List.mem_filter.1 hg'
      cases hc : g.cls with
      | none => rfl
      | some c =>
        cases hd : g'.cls with
        | none => rfl
        | some d =>
          simp only
          split
          · rename_i hcd
            subst hcd
            rw [(link p (List.mem_of_getElem? ha) q (List.mem_of_getElem? hb) c g m1 g' m2 (Option.isSome_iff_ne_none.1 b1)
              (Option.isSome_iff_ne_none.1 b2) hc hd).1, zero_mul]
          · rfl
  · rcases find j hj with ⟨b, q, j', hb, hj', f, hlt2, hb', f'⟩ | ⟨b, q, j', hb, hj', f, hb', f'⟩
    · rw [if_neg (by omega), if_pos hlt2]
      conv_lhs => rw [e', f']
      have hbl := (List.getElem?_eq_some_iff.1 hb).1
      rw [gpCov_rows orf _ _ b p q ha' hb' i' j' hi' hj', if_neg (by omega), zero_add]
      apply List.sum_eq_zero
      intro x hx
      obtain ⟨g, hg, rfl⟩ := List.mem_map.1 hx
      apply List.sum_eq_zero
      intro y hy
      obtain ⟨g', hg', rfl⟩ := List.mem_map.1 hy
      obtain ⟨m1, b1⟩ := List.mem_filter.1 hg
      obtain ⟨m2, b2⟩ := List.mem_filter.1 hg'
      cases hc : g.cls with
      | none => rfl
      | some c =>
        cases hd : g'.cls with
        | none => rfl
        | some d =>
          simp only
          split
          · rename_i hcd
            subst hcd
            rw [(link q (List.mem_of_getElem? hb) p (List.mem_of_getElem? ha) c g' m2 g m1 (Option.isSome_iff_ne_none.1 b2)
              (Option.isSome_iff_ne_none.1 b1) hd hc).2, zero_mul]
          · rfl
    · rw [if_neg (by omega), if_neg (by omega)]
      conv_lhs => rw [e', f']
      rw [gpCov_rows orf _ _ _ p q ha' hb' i' j' hi' hj', e, f, Nat.add_sub_cancel_left, Nat.add_sub_cancel_left]
      have hh := gpCov_rows orf qs a b p q ha hb i' j' hi' hj'
      refine Eq.trans ?_ hh.symm
      simp only [Nat.add_left_cancel_iff]

theorem density_append (hash : Col ℝ → H) (orf : Nat → Pos → Pos → ℝ) (ps qs : List JPsr) (h : Apt hash orf (ps ++ qs))
    (hu : Unlinked orf ps qs) (m : JPsr → Nat) (N : ∀ p : JPsr, Matrix (Fin p.n) (Fin p.n) ℝ)
    (M : ∀ p : JPsr, Matrix (Fin p.n) (Fin (m p)) ℝ) (hN : NoiseIs (ps ++ qs) m N M) :
    density orf (ps ++ qs) m N M = density orf ps m N M + density orf qs m N M := by
  let n : List JPsr → Nat := fun g => (g.map JPsr.n).sum
  let k : List JPsr → Nat := fun g => (g.map m).sum
  let C : ∀ g : List JPsr, Matrix (Fin (n g)) (Fin (n g)) ℝ := fun g => jm JPsr.n JPsr.n N g + toMatrix (g.map JPsr.n).sum (gpCov orf g)
  let B : ∀ g : List JPsr, Matrix (Fin (n g)) (Fin (k g)) ℝ := fun g => jm JPsr.n m M g
  let r : ∀ g : List JPsr, Fin (n g) → ℝ := fun g => jv JPsr.n (fun p => p.res - p.delays.reduceOption.sum) g
  have hNp : NoiseIs ps m N M := fun p hp => hN p (List.mem_append_left _ hp)
  have hNq : NoiseIs qs m N M := fun p hp => hN p (List.mem_append_right _ hp)
  have hinj : ∀ g : List JPsr, NoiseIs g m N M → Function.Injective (B g).mulVec := fun g hg =>
    jm_injective _ _ fun p hp => (hg p hp).elim fun o ho => ho.2.inj
  have key := margLog_jm n k C B r [ps, qs]
    (by
      intro g hg
      simp only [List.mem_cons, List.not_mem_nil, or_false] at hg
      rcases hg with rfl | rfl
      · exact cov_posDef hash orf _ h.left m N M hNp
      · exact cov_posDef hash orf _ h.right m N M hNq)
    (by
      intro g hg
      simp only [List.mem_cons, List.not_mem_nil, or_false] at hg
      rcases hg with rfl | rfl
      · exact hinj _ hNp
      · exact hinj _ hNq)
  have hsum : margLog (C ps) (B ps) (r ps) + margLog (C qs) (B qs) (r qs) = margLog (jm n n C [ps, qs]) (jm n k B [ps, qs]) (jv n r [ps, qs]) := by
    rw [key]
    simp
  show _ = margLog (C ps) (B ps) (r ps) + margLog (C qs) (B qs) (r qs)
  rw [hsum]
  have hn : ((ps ++ qs).map JPsr.n).sum = ([ps, qs].map n).sum := by simp [n]
  have hk : ((ps ++ qs).map m).sum = ([ps, qs].map k).sum := by simp [k]
  have hn' : ((ps ++ qs).map JPsr.n).sum = n ps + n qs := by rw [List.map_append, List.sum_append]
  have hk' : ((ps ++ qs).map m).sum = k ps + k qs := by rw [List.map_append, List.sum_append]
  unfold density
  refine margLog_ext hn hk _ _ _ _ _ _ (fun i j => ?_) (fun i j => ?_) fun i => ?_
  · have hi : (i : Nat) < ((ps ++ qs).map JPsr.n).sum := i.2
    have hj : (j : Nat) < ((ps ++ qs).map JPsr.n).sum := j.2
    have hC : ∀ (g : List JPsr) (i j : Nat), i < n g → j < n g →
        spanned (C g) i j = rect (g.map fun p => (p.n, p.n, spanned (N p))) i j + gpCov orf g i j := by
      intro g i j hi hj
      rw [spanned, dif_pos ⟨hi, hj⟩]
      simp only [C]
      rw [Matrix.add_apply, jm_rect]
      rfl
    rw [Matrix.add_apply, jm_rect, jm_rect, List.map_append, rect_append, List.map_map, List.map_map]
    simp only [toMatrix, Matrix.of_apply]
    rw [gpCov_append hash orf ps qs h hu i j hi hj]
    simp only [List.map_cons, List.map_nil, rect, Fin.val_cast, Function.comp_def]
    show (if (i : Nat) < n ps then if (j : Nat) < n ps then (_ : ℝ) else _ else if (j : Nat) < n ps then _ else _) +
      (if (i : Nat) < n ps then if (j : Nat) < n ps then (_ : ℝ) else _ else if (j : Nat) < n ps then _ else _) = _
    have hi : (i : Nat) < n ps + n qs := by omega
    have hj : (j : Nat) < n ps + n qs := by omega
    split_ifs with h1 h2 h3 h4 h5
    · exact (hC ps i j h1 h2).symm
    · rw [add_zero]
    · rw [add_zero]
    · exact (hC qs _ _ (by omega) (by omega)).symm
    all_goals omega
  · have hi : (i : Nat) < ((ps ++ qs).map JPsr.n).sum := i.2
    have hj : (j : Nat) < ((ps ++ qs).map m).sum := j.2
    have hB : ∀ (g : List JPsr) (i j : Nat), i < n g → j < k g → spanned (B g) i j = rect (g.map fun p => (p.n, m p, spanned (M p))) i j := by
      intro g i j hi hj
      rw [spanned, dif_pos ⟨hi, hj⟩]
      simp only [B]
      rw [jm_rect]
    rw [jm_rect, jm_rect, List.map_append, rect_append, List.map_map, List.map_map]
    simp only [List.map_cons, List.map_nil, rect, Fin.val_cast, Function.comp_def]
    show (if (i : Nat) < n ps then if (j : Nat) < k ps then _ else _ else if (j : Nat) < k ps then _ else _) = _
    have hi : (i : Nat) < n ps + n qs := by omega
    have hj : (j : Nat) < k ps + k qs := by omega
    split_ifs with h1 h2 h3 h4 h5
    · exact (hB ps i j h1 h2).symm
    · rfl
    · rfl
    · exact (hB qs _ _ (by omega) (by omega)).symm
    all_goals omega
  · have hi : (i : Nat) < ((ps ++ qs).map JPsr.n).sum := i.2
    have hr : ∀ (g : List JPsr) (i : Nat) (hi : i < n g), r g ⟨i, hi⟩ = concatOf (g.map fun p => ⟨p.n, p.res - p.delays.reduceOption.sum⟩) i := by
      intro g i hi
      exact jv_rect _ _ _ _
    rw [jv_rect, jv_rect, List.map_append, concat_append, List.map_map]
    simp only [List.map_cons, List.map_nil, concatOf, Fin.val_cast, Function.comp_def]
    show (if (i : Nat) < n ps then _ else _) = _
    have hi : (i : Nat) < n ps + n qs := by omega
    split_ifs with h1 h2
    · exact (hr ps i h1).symm
    · exact (hr qs _ h2).symm
    · exact absurd (show (i : Nat) - n ps < n qs by omega) h2

/-- C123: two groups of pulsars without a process in common have the sum of their likelihoods. -/
theorem C123_groups (hash : Col ℝ → H) (svd : ∀ {n : Nat} (M : Matrix (Fin n) (Fin n) ℝ), Svd M) (method : Method) (orf : Nat → Pos → Pos → ℝ)
    (ps qs : List JPsr) (h : Apt hash orf (ps ++ qs)) (hu : Unlinked orf ps qs) (hm : Covered method (ps ++ qs))
    (hs : ∀ p ∈ ps ++ qs, Solvable p) :
    ∃ x y, likelihood hash svd method orf ps = .ok (some x) ∧ likelihood hash svd method orf qs = .ok (some y) ∧
      likelihood hash svd method orf (ps ++ qs) = .ok (some (x + y)) := by
  obtain ⟨k, N, M, hN⟩ := noise_choice
  have hp := hN ps fun p hp => hs p (List.mem_append_left _ hp)
  have hq := hN qs fun p hp => hs p (List.mem_append_right _ hp)
  refine ⟨_, _, likelihood_covered hash svd method orf ps (hm.part fun _ hp => List.mem_append_left _ hp) h.left _ _ _ hp,
    likelihood_covered hash svd method orf qs (hm.part fun _ hp => List.mem_append_right _ hp) h.right _ _ _ hq, ?_⟩
  rw [likelihood_covered hash svd method orf _ hm h _ _ _ (hN _ hs), density_append hash orf ps qs h hu _ _ _ (hN _ hs), List.map_append, List.sum_append]
  congr 2
  ring

theorem margLog_empty {n m : Nat} (hn : n = 0) (hm : m = 0) (C : Matrix (Fin n) (Fin n) ℝ) (M : Matrix (Fin n) (Fin m) ℝ) (r : Fin n → ℝ) :
    margLog C M r = 0 := by
  subst hn hm
  unfold margLog
  rw [Matrix.det_isEmpty, Matrix.det_isEmpty]
  simp [dotProduct]

/-- C123: pulsars without processes in common have the sum of their likelihoods. -/
theorem C123_pulsars (hash : Col ℝ → H) (svd : ∀ {n : Nat} (M : Matrix (Fin n) (Fin n) ℝ), Svd M) (method : Method) (orf : Nat → Pos → Pos → ℝ)
    (ps : List JPsr) (h : Apt hash orf ps) (hu : ps.Pairwise fun p q => Unlinked orf [p] [q]) (hm : Covered method ps)
    (hs : ∀ p ∈ ps, Solvable p) :
    ∃ xs : List ℝ, List.Forall₂ (fun p x => likelihood hash svd method orf [p] = .ok (some x)) ps xs ∧
      likelihood hash svd method orf ps = .ok (some xs.sum) := by
  induction ps with
  | nil =>
    refine ⟨[], .nil, ?_⟩
    rw [likelihood_covered hash svd method orf [] hm h (fun _ => 0) (fun _ => 1) (fun _ => 0) (by intro p hp; simp at hp)]
    congr 2
    have e : density orf [] (fun _ => 0) (fun _ => 1) (fun _ => 0) = 0 := margLog_empty rfl rfl _ _ _
    rw [e]
    simp
  | cons p t ih =>
    obtain ⟨hpt, ht⟩ := List.pairwise_cons.1 hu
    have h' : Apt hash orf ([p] ++ t) := h
    obtain ⟨xs, h1, h2⟩ := ih h'.right ht (hm.part fun _ hq => List.mem_cons_of_mem _ hq) fun q hq => hs q (List.mem_cons_of_mem _ hq)
    obtain ⟨x, y, hx, hy, hxy⟩ := C123_groups hash svd method orf [p] t h'
      (fun a ha q hq => by
        have := hpt q hq
        exact this a ha q (by simp)) hm hs
    refine ⟨x :: xs, .cons hx h1, ?_⟩
    rw [h2] at hy
    cases hy
    rw [List.sum_cons]
    exact hxy

/-! ## Cases -/

theorem many_solvable (p q : Pos) (l : List (ℝ × Option Nat)) : ∀ x ∈ [many p l, many q l], Solvable x := by
  intro x hx
  obtain ⟨o, h1, h2⟩ := many_noise _ (many_all _ _ _) x hx
  exact ⟨_, _, _, o, h1, h2⟩

/-- Two pulsars with a background and a clock error, in both orders and with two ways of inverting. -/
example (hash : Col ℝ → H) (svd : ∀ {n : Nat} (M : Matrix (Fin n) (Fin n) ℝ), Svd M) :
    likelihood hash svd .cliques duo [many east three, many north three] = likelihood hash svd .sparse duo [many north three, many east three] :=
  C123_order hash svd .cliques .sparse duo _ _ (List.Perm.swap _ _ _) (three_apt hash) (.inr (.inr ⟨rfl, many_same three east north⟩)) (.inl rfl)
    (many_solvable _ _ _)

theorem dip_en : Orf.dipoleOrf east north = 0 ∧ Orf.dipoleOrf north east = 0 := by
  have h := east_north
  refine ⟨?_, ?_⟩
  · rw [Orf.dipoleOrf, if_neg h]
    simp [Orf.dot, east, north, Fin.sum_univ_three]
  · rw [Orf.dipoleOrf, if_neg (Ne.symm h)]
    simp [Orf.dot, east, north, Fin.sum_univ_three]

/-- Two pulsars at right angles with a common dipole process, and each with its own: the common process does not link them. -/
example (hash : Col ℝ → H) (svd : ∀ {n : Nat} (M : Matrix (Fin n) (Fin n) ℝ), Svd M) :
    ∃ x y, likelihood hash svd .cliques (fun _ => Orf.dipoleOrf) [many east two] = .ok (some x) ∧
      likelihood hash svd .cliques (fun _ => Orf.dipoleOrf) [many north two] = .ok (some y) ∧
      likelihood hash svd .cliques (fun _ => Orf.dipoleOrf) [many east two, many north two] = .ok (some (x + y)) := by
  have hapt : Apt hash (fun _ => Orf.dipoleOrf) [many east two, many north two] := by
    refine many_apt hash _ two (by simp [two]) ?_ _ _ ?_ ?_
    · intro x hx
      simp only [two, List.mem_cons, List.not_mem_nil, or_false] at hx
      rcases hx with rfl | rfl <;> norm_num
    · intro c
      by_cases h : 5 = c <;> simp [two, h]
    · intro c
      refine ⟨1 + 1e-5, fun _ => ⟨by simp [Orf.dipoleOrf], by simp [Orf.dipoleOrf], ?_, ?_⟩⟩
      · rw [dip_en.1, abs_zero]
        norm_num
      · rw [dip_en.1, dip_en.2]
  refine C123_groups hash svd .cliques (fun _ => Orf.dipoleOrf) [many east two] [many north two] hapt ?_
    (.inr (.inr ⟨rfl, many_same two east north⟩)) (many_solvable _ _ _)
  intro p hp q hq g _ g' _ _ _ c _ _
  obtain rfl : p = many east two := by simpa using hp
  obtain rfl : q = many north two := by simpa using hq
  exact dip_en.1

/-- The same as a sum over the pulsars. -/
example (hash : Col ℝ → H) (svd : ∀ {n : Nat} (M : Matrix (Fin n) (Fin n) ℝ), Svd M) (h : Apt hash (fun _ => Orf.dipoleOrf) [many east two, many north two]) :
    ∃ xs : List ℝ, List.Forall₂ (fun p x => likelihood hash svd .sparse (fun _ => Orf.dipoleOrf) [p] = .ok (some x)) [many east two, many north two] xs ∧
      likelihood hash svd .sparse (fun _ => Orf.dipoleOrf) [many east two, many north two] = .ok (some xs.sum) := by
  refine C123_pulsars hash svd .sparse _ _ h (List.pairwise_pair.2 ?_) (.inl rfl) (many_solvable _ _ _)
  intro p hp q hq g _ g' _ _ _ c _ _
  obtain rfl : p = many east two := by simpa using hp
  obtain rfl : q = many north two := by simpa using hq
  exact dip_en.1

end Verif.Joined
