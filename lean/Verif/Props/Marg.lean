import Verif.Model.Marg
import Verif.Props.Noise
import Mathlib.Topology.Instances.Matrix
import Mathlib.Topology.Algebra.Order.Field
import Mathlib.Analysis.SpecialFunctions.Log.Basic

/-!
C54: sums of noise objects. C55, C83: `MarginalizingNmat`.
-/

set_option linter.unusedSectionVars false

namespace Verif.Noise

open Matrix

/-! ### C54 -/

section Sum

variable {K : Type} [Field K] [LinearOrder K] [IsStrictOrderedRing K] {n : Nat}

/-- An ECORR kernel in one of its three forms. -/
inductive Kern (n : Nat) (K : Type)
  | sm (ep : List (List (Fin n) × K))
  | block (bl : List (List (Fin n) × (Nat → Nat → K)))
  | csc (M : Matrix (Fin n) (Fin n) K)

/-- What a white-noise signal contributes: variances, a kernel, or a design matrix to marginalize
over. -/
inductive Term (n : Nat) (K : Type)
  | diag (v : Fin n → K)
  | kern (k : Kern n K)
  | marg (m : Nat) (M : Matrix (Fin n) (Fin m) K)

/-- The object a signal returns from `get_ndiag`. -/
def Term.obj : Term n K → Nmat n K
  | .diag v => .base (.arr v)
  | .kern (.sm ep) => .base (.sm ep .zero)
  | .kern (.block bl) => .base (.block bl .zero)
  | .kern (.csc M) => .base (.csc M)
  | .marg m M => .marg m M .zero

/-- The kernel forms that do not work before a marginalizing timing model. -/
def Term.dense : Term n K → Prop
  | .kern (.sm _) => True
  | .kern (.block _) => True
  | _ => False

def Term.isMarg : Term n K → Prop
  | .marg _ _ => True
  | _ => False

/-- The variances among the terms. -/
def Term.diag? : Term n K → Option (Fin n → K)
  | .diag v => some v
  | _ => none

def Term.kern? : Term n K → Option (Kern n K)
  | .kern k => some k
  | _ => none

def Term.marg? : Term n K → Option (Σ m, Matrix (Fin n) (Fin m) K)
  | .marg m M => some ⟨m, M⟩
  | _ => none

/-- A list of terms that can be added: positive variances, at most one kernel and at most one
marginalizing model, which comes before a kernel that is not sparse. -/
structure Addable (l : List (Term n K)) : Prop where
  pos : ∀ v, Term.diag v ∈ l → ∀ i, 0 < v i
  block : ∀ bl, Term.kern (.block bl) ∈ l → bl ≠ []
  kern : (l.filterMap Term.kern?).length ≤ 1
  marg : (l.filterMap Term.marg?).length ≤ 1
  order : l.Pairwise fun a b => ¬ (a.dense ∧ b.isMarg)

/-- The noise object with total variances `d` (if any), kernel `k` and design matrix `g`. -/
def inner : Option (Fin n → K) → Option (Kern n K) → Base n K
  | none, none => .zero
  | some v, none => .arr v
  | none, some (.sm ep) => .sm ep .zero
  | some v, some (.sm ep) => .sm ep (.arr v)
  | none, some (.block bl) => .block bl .zero
  | some v, some (.block bl) => .block bl (.arr v)
  | none, some (.csc M) => .csc M
  | some v, some (.csc M) => .csc (M + diagonal v)

def whole (d : Option (Fin n → K)) (k : Option (Kern n K)) :
    Option (Σ m, Matrix (Fin n) (Fin m) K) → Nmat n K
  | none => .base (inner d k)
  | some ⟨m, M⟩ => .marg m M (inner d k)

/-- Sum of variances, nothing for no variances. -/
def addD : Option (Fin n → K) → (Fin n → K) → (Fin n → K)
  | none, v => v
  | some w, v => w + v

theorem csc_diag (M : Matrix (Fin n) (Fin n) K) (v : Fin n → K) :
    (of fun i j => M i j + if i = j then v i else 0) = M + diagonal v := by
  ext i j; rw [of_apply, Matrix.add_apply, diagonal_apply]

theorem mkBlock_pos (bl : List (List (Fin n) × (Nat → Nat → K))) (v : Fin n → K) (h : bl ≠ []) :
    mkBlock bl (.arr v) = .ok (.block bl (.arr v)) := by
  simp only [mkBlock]; rw [if_neg (fun hc => h hc.2)]

/-- All variances so far are positive. -/
def PosD (d : Option (Fin n → K)) : Prop := ∀ v, d = some v → ∀ i, 0 < v i

def OkK (k : Option (Kern n K)) : Prop := ∀ bl, k = some (.block bl) → bl ≠ []

theorem inner_diag (d : Option (Fin n → K)) (k : Option (Kern n K)) (v : Fin n → K) (hk : OkK k) :
    (inner d k).add (.arr v) = .ok (inner (some (addD d v)) k) := by
  rcases d with _ | w <;> rcases k with _ | (ep | bl | M) <;> simp only [inner, Base.add, addD, NV.add]
  · exact mkBlock_pos bl v (hk bl rfl)
  · rw [csc_diag]
  · rfl
  · rfl
  · exact mkBlock_pos bl _ (hk bl rfl)
  · rw [csc_diag, add_assoc, diagonal_add]; rfl

theorem inner_kern (hn : 0 < n) (d : Option (Fin n → K)) (κ : Kern n K) (hd : PosD d)
    (hk : OkK (some κ)) :
    (inner d none).add (inner none (some κ)) = .ok (inner d (some κ)) := by
  have hz : ∀ v, d = some v → ¬ ∀ i, v i = 0 := fun v h h0 =>
    (hd v h ⟨0, hn⟩).ne' (h0 _)
  rcases d with _ | w <;> rcases κ with (ep | bl | M) <;> simp only [inner, Base.add, mkBlock, NV.add]
  · rw [if_neg (hz w rfl)]
  · rw [if_neg (hz w rfl)]; exact mkBlock_pos bl w (hk bl rfl)
  · rw [csc_diag]

theorem whole_diag (hn : 0 < n) (d : Option (Fin n → K)) (k : Option (Kern n K))
    (g : Option (Σ m, Matrix (Fin n) (Fin m) K)) (v : Fin n → K) (hk : OkK k) :
    (whole d k g).add (.base (.arr v)) = .ok (whole (some (addD d v)) k g) := by
  have h := inner_diag d k v hk
  rcases g with _ | ⟨m, M⟩
  · simp only [whole]
    rw [← Except.map_ok (f := Nmat.base), ← h]
    rcases d with _ | w <;> rcases k with _ | (ep | bl | M) <;> rfl
  · simp only [whole, Nmat.add, h]; rfl

theorem whole_kern (hn : 0 < n) (d : Option (Fin n → K)) (κ : Kern n K)
    (g : Option (Σ m, Matrix (Fin n) (Fin m) K)) (hd : PosD d) (hk : OkK (some κ)) :
    (whole d none g).add (.base (inner none (some κ))) = .ok (whole d (some κ) g) := by
  have h := inner_kern hn d κ hd hk
  rcases g with _ | ⟨m, M⟩
  · simp only [whole]
    rw [← Except.map_ok (f := Nmat.base), ← h]
    rcases d with _ | w <;> rcases κ with (ep | bl | M) <;> rfl
  · simp only [whole]
    rw [← Except.map_ok (f := Nmat.marg m M), ← h]
    rcases d with _ | w <;> rcases κ with (ep | bl | M) <;> rfl

theorem whole_marg (hn : 0 < n) (d : Option (Fin n → K)) (k : Option (Kern n K))
    (m : Nat) (M : Matrix (Fin n) (Fin m) K) (hd : PosD d)
    (hk : ∀ κ, k = some κ → ∃ M', κ = .csc M') :
    (whole d k none).add (.marg m M .zero) = .ok (whole d k (some ⟨m, M⟩)) := by
  have hz : ∀ v, d = some v → ¬ ∀ i, v i = 0 := fun v h h0 =>
    (hd v h ⟨0, hn⟩).ne' (h0 _)
  rcases k with _ | κ
  · rcases d with _ | w
    · rfl
    · simp only [whole, inner, Nmat.add]
      rw [if_neg (hz w rfl)]; rfl
  · obtain ⟨M', rfl⟩ := hk κ rfl
    rcases d with _ | w <;> rfl

/-- The total of the terms, whatever their order. -/
def total (l : List (Term n K)) : Nmat n K :=
  whole ((l.filterMap Term.diag?).foldl (fun d v => some (addD d v)) none)
    (l.filterMap Term.kern?).head? (l.filterMap Term.marg?).head?

theorem getNdiag_aux (hn : 0 < n) (l : List (Term n K)) (d : Option (Fin n → K))
    (k : Option (Kern n K)) (g : Option (Σ m, Matrix (Fin n) (Fin m) K)) (hd : PosD d) (hk : OkK k)
    (hl : Addable l) (hkl : k ≠ none → l.filterMap Term.kern? = [])
    (hgl : g ≠ none → l.filterMap Term.marg? = [])
    (hkg : (∃ κ, k = some κ ∧ ∀ M', κ ≠ .csc M') → l.filterMap Term.marg? = []) :
    (l.map Term.obj).foldlM Nmat.add (whole d k g) =
      .ok (whole ((l.filterMap Term.diag?).foldl (fun d v => some (addD d v)) d)
        (k <|> (l.filterMap Term.kern?).head?) (g <|> (l.filterMap Term.marg?).head?)) := by
  induction l generalizing d k g with
  | nil => simp [pure, Except.pure]
  | cons t l ih =>
    have hord := List.pairwise_cons.1 hl.order
    have hl' : Addable l := by
      refine ⟨fun v h => hl.pos v (List.mem_cons_of_mem _ h),
        fun bl h => hl.block bl (List.mem_cons_of_mem _ h), ?_, ?_, hord.2⟩
      · refine le_trans ?_ hl.kern
        rw [List.filterMap_cons]; split <;> simp
      · refine le_trans ?_ hl.marg
        rw [List.filterMap_cons]; split <;> simp
    rw [List.map_cons, List.foldlM_cons]
    cases t with
    | diag v =>
      have hv := hl.pos v List.mem_cons_self
      simp only [Term.obj]
      rw [whole_diag hn d k g v hk]
      have h1 : (Term.diag v :: l).filterMap Term.kern? = l.filterMap Term.kern? := rfl
      have h2 : (Term.diag v :: l).filterMap Term.marg? = l.filterMap Term.marg? := rfl
      have h3 : (Term.diag v :: l).filterMap Term.diag? = v :: l.filterMap Term.diag? := rfl
      rw [h1] at hkl
      rw [h2] at hgl hkg
      rw [h1, h2, h3, List.foldl_cons]
      refine ih _ _ _ ?_ hk hl' hkl hgl hkg
      intro w hw i
      cases hw
      cases d with
      | none => exact hv i
      | some u => exact add_pos (hd u rfl i) (hv i)
    | kern κ =>
      have hkn : k = none := by
        by_contra hc
        have := hkl hc
        simp [Term.kern?] at this
      subst hkn
      have hκ : OkK (some κ) := by
        intro bl h
        cases h
        exact hl.block bl List.mem_cons_self
      have hobj : (Term.kern κ : Term n K).obj = .base (inner none (some κ)) := by cases κ <;> rfl
      rw [hobj, whole_kern hn d κ g hd hκ]
      have h1 : (Term.kern κ :: l).filterMap Term.kern? = κ :: l.filterMap Term.kern? := rfl
      have h2 : (Term.kern κ :: l).filterMap Term.marg? = l.filterMap Term.marg? := rfl
      have h3 : (Term.kern κ :: l).filterMap Term.diag? = l.filterMap Term.diag? := rfl
      rw [h2] at hgl
      have hnil : l.filterMap Term.kern? = [] := by
        have := hl.kern
        rw [h1, List.length_cons] at this
        exact List.eq_nil_of_length_eq_zero (by omega)
      rw [h1, h2, h3]
      have := ih d (some κ) g hd hκ hl' (fun _ => hnil) hgl ?_
      · show (l.map Term.obj).foldlM Nmat.add (whole d (some κ) g) = _
        rw [this]; rfl
      · rintro ⟨κ', h, hκ'⟩
        cases h
        rw [List.filterMap_eq_nil_iff]
        intro t ht
        have := hord.1 t ht
        cases t with
        | marg m M =>
          exfalso
          apply this
          refine ⟨?_, trivial⟩
          cases κ with
          | csc M' => exact absurd rfl (hκ' M')
          | sm => trivial
          | block => trivial
        | diag => rfl
        | kern => rfl
    | marg m M =>
      have hgn : g = none := by
        by_contra hc
        have := hgl hc
        simp [Term.marg?] at this
      subst hgn
      have hkc : ∀ κ, k = some κ → ∃ M', κ = .csc M' := by
        intro κ h
        by_contra hc
        push Not at hc
        have := hkg ⟨κ, h, hc⟩
        simp [Term.marg?] at this
      simp only [Term.obj]
      rw [whole_marg hn d k m M hd hkc]
      have h1 : (Term.marg m M :: l).filterMap Term.kern? = l.filterMap Term.kern? := rfl
      have h2 : (Term.marg m M :: l).filterMap Term.marg? = ⟨m, M⟩ :: l.filterMap Term.marg? := rfl
      have h3 : (Term.marg m M :: l).filterMap Term.diag? = l.filterMap Term.diag? := rfl
      rw [h1] at hkl
      have hnil : l.filterMap Term.marg? = [] := by
        have := hl.marg
        rw [h2, List.length_cons] at this
        exact List.eq_nil_of_length_eq_zero (by omega)
      rw [h1, h2, h3]
      have := ih d k (some ⟨m, M⟩) hd hk hl' hkl (fun _ => hnil) (fun _ => hnil)
      show (l.map Term.obj).foldlM Nmat.add (whole d k (some ⟨m, M⟩)) = _
      rw [this]; rfl

theorem getNdiag_ok (hn : 0 < n) (l : List (Term n K)) (hl : Addable l) :
    getNdiag (l.map Term.obj) = .ok (total l) := by
  have := getNdiag_aux hn l none none none (by intro v h; simp at h) (by intro v h; simp at h) hl
    (by simp) (by simp) (by simp)
  unfold getNdiag
  have h0 : (Nmat.base Base.zero : Nmat n K) = whole none none none := rfl
  rw [h0, this]
  simp [total]

/-- The sum of variances does not depend on the order. -/
theorem fold_addD_perm (l l' : List (Fin n → K)) (h : l.Perm l') (d : Option (Fin n → K)) :
    l.foldl (fun d v => some (addD d v)) d = l'.foldl (fun d v => some (addD d v)) d := by
  induction h generalizing d with
  | nil => rfl
  | cons x _ ih => exact ih _
  | swap x y l =>
    simp only [List.foldl_cons]
    congr 2
    cases d with
    | none => simp only [addD]; rw [add_comm]
    | some w => simp only [addD]; rw [add_assoc, add_assoc, add_comm x y]
  | trans _ _ ih1 ih2 => rw [ih1, ih2]

/-- Two orders of a list of at most one entry agree. -/
theorem head_perm {α : Type} (l l' : List α) (h : l.Perm l') (h1 : l.length ≤ 1) :
    l.head? = l'.head? := by
  match l, h1 with
  | [], _ => rw [h.nil_eq]
  | [a], _ => rw [h.singleton_eq]

/-- C54: terms with positive variances, at most one kernel and at most one marginalizing timing
model add up to the same object in any two orders in which the marginalizing timing model comes
before a kernel that is not sparse; in particular in any two orders when there is no
marginalizing timing model. -/
theorem C54_partial (hn : 0 < n) (l l' : List (Term n K)) (hp : l.Perm l') (hl : Addable l)
    (ho : l'.Pairwise fun a b => ¬ (a.dense ∧ b.isMarg)) :
    ∃ N, getNdiag (l.map Term.obj) = .ok N ∧ getNdiag (l'.map Term.obj) = .ok N := by
  have hl' : Addable l' := ⟨fun v h => hl.pos v (hp.mem_iff.2 h),
    fun bl h => hl.block bl (hp.mem_iff.2 h),
    by rw [← (hp.filterMap _).length_eq]; exact hl.kern,
    by rw [← (hp.filterMap _).length_eq]; exact hl.marg, ho⟩
  refine ⟨total l, getNdiag_ok hn l hl, ?_⟩
  rw [getNdiag_ok hn l' hl']
  unfold total
  rw [fold_addD_perm _ _ (hp.filterMap _), head_perm _ _ (hp.filterMap _) hl.kern,
    head_perm _ _ (hp.filterMap _) hl.marg]

theorem C54_no_marg (hn : 0 < n) (l l' : List (Term n K)) (hp : l.Perm l')
    (hpos : ∀ v, Term.diag v ∈ l → ∀ i, 0 < v i) (hb : ∀ bl, Term.kern (.block bl) ∈ l → bl ≠ [])
    (hk : (l.filterMap Term.kern?).length ≤ 1) (hm : ∀ t ∈ l, ¬ t.isMarg) :
    ∃ N, getNdiag (l.map Term.obj) = .ok N ∧ getNdiag (l'.map Term.obj) = .ok N := by
  have hm0 : l.filterMap Term.marg? = [] := by
    rw [List.filterMap_eq_nil_iff]
    intro t ht
    cases t with
    | marg => exact absurd trivial (hm _ ht)
    | diag => rfl
    | kern => rfl
  refine C54_partial hn l l' hp ⟨hpos, hb, hk, by rw [hm0]; simp, ?_⟩ ?_
  · exact List.pairwise_of_forall_mem_list fun a _ b hb h => hm b hb h.2
  · exact List.pairwise_of_forall_mem_list fun a _ b hb h => hm b (hp.mem_iff.2 hb) h.2

/-- C54 fails when a kernel that is not sparse comes before the marginalizing timing model: the
Sherman-Morrison kernel takes it in as its diagonal and the object cannot be solved with, the block
kernel raises at once; with the timing model first both work. -/
theorem C54_order_false (hn : 0 < n) (v : Fin n → K) (hv : ∀ i, 0 < v i)
    (ep : List (List (Fin n) × K)) (bl : List (List (Fin n) × (Nat → Nat → K))) (hb : bl ≠ [])
    (m : Nat) (M : Matrix (Fin n) (Fin m) K) :
    getNdiag [(Term.diag v).obj, (Term.kern (.sm ep)).obj, (Term.marg m M).obj] =
      .ok (.base (.sm ep .bad)) ∧
    getNdiag [(Term.marg m M).obj, (Term.diag v).obj, (Term.kern (.sm ep)).obj] =
      .ok (.marg m M (.sm ep (.arr v))) ∧
    getNdiag [(Term.diag v).obj, (Term.kern (.block bl)).obj, (Term.marg m M).obj] =
      .error .typeError ∧
    getNdiag [(Term.marg m M).obj, (Term.diag v).obj, (Term.kern (.block bl)).obj] =
      .ok (.marg m M (.block bl (.arr v))) := by
  have hz : ¬ ∀ i, v i = 0 := fun h => (hv ⟨0, hn⟩).ne' (h _)
  have h1 : ((.base .zero : Nmat n K).add (Term.diag v).obj) = .ok (.base (.arr v)) := rfl
  have h2 : ((.base (.arr v) : Nmat n K).add (Term.kern (.sm ep)).obj) =
      .ok (.base (.sm ep (.arr v))) := by
    simp only [Nmat.add, Term.obj, Base.add, if_neg hz]; rfl
  have h3 : ((.base (.arr v) : Nmat n K).add (Term.kern (.block bl)).obj) =
      .ok (.base (.block bl (.arr v))) := by
    simp only [Nmat.add, Term.obj, Base.add, if_neg hz, NV.add, mkBlock_pos bl v hb]; rfl
  have h4 : ((.base .zero : Nmat n K).add (Term.marg m M).obj) = .ok (.marg m M .zero) := rfl
  have h5 : ((.marg m M .zero : Nmat n K).add (Term.diag v).obj) = .ok (.marg m M (.arr v)) := rfl
  have h6 : ((.marg m M (.arr v) : Nmat n K).add (Term.kern (.sm ep)).obj) =
      .ok (.marg m M (.sm ep (.arr v))) := by
    simp only [Nmat.add, Term.obj, Base.add, if_neg hz]; rfl
  have h7 : ((.marg m M (.arr v) : Nmat n K).add (Term.kern (.block bl)).obj) =
      .ok (.marg m M (.block bl (.arr v))) := by
    simp only [Nmat.add, Term.obj, Base.add, if_neg hz, NV.add, mkBlock_pos bl v hb]; rfl
  refine ⟨?_, ?_, ?_, ?_⟩ <;> unfold getNdiag <;>
    simp only [List.foldlM_cons, List.foldlM_nil, bind, Except.bind, h1, h2, h3, h4, h5, h6, h7] <;>
    rfl

/-- Two kernels that are not sparse, or two marginalizing models, never give a usable object. -/
theorem C54_two_raise (ep ep' : List (List (Fin n) × K)) (m m' : Nat)
    (M : Matrix (Fin n) (Fin m) K) (M' : Matrix (Fin n) (Fin m') K) :
    getNdiag [(Term.kern (.sm ep)).obj, (Term.kern (.sm ep')).obj] = .ok (.base (.sm ep .bad)) ∧
    getNdiag [(Term.marg m M).obj, (Term.marg m' M').obj] = .error .valueError := ⟨rfl, rfl⟩

-- Two variances, a kernel and a marginalizing model meet the hypotheses of `C54_partial`.
example : Addable ([.marg 1 (of fun _ _ => 1), .diag fun _ => 2, .kern (.sm [([0, 1], 3)]),
    .diag fun _ => 1] : List (Term 2 ℚ)) := by
  refine ⟨?_, ?_, by decide, by decide, by simp [Term.dense, Term.isMarg]⟩
  · intro v h i
    simp at h
    rcases h with rfl | rfl <;> norm_num
  · intro bl h; simp at h

end Sum

/-! ### C55 -/

section Marg

variable {n : Nat}

/-- The inverse covariance with the directions of the design matrix taken out. -/
noncomputable def projN {m : Nat} (N : Matrix (Fin n) (Fin n) ℝ) (M : Matrix (Fin n) (Fin m) ℝ) :
    Matrix (Fin n) (Fin n) ℝ :=
  N⁻¹ - N⁻¹ * M * (Mᵀ * N⁻¹ * M)⁻¹ * Mᵀ * N⁻¹

theorem gram_posDef {m : Nat} (N : Matrix (Fin n) (Fin n) ℝ) (M : Matrix (Fin n) (Fin m) ℝ)
    (hN : N.PosDef) (hM : Function.Injective M.mulVec) : (Mᵀ * N⁻¹ * M).PosDef := by
  have := hN.inv.conjTranspose_mul_mul_same hM
  rwa [conjTranspose_eq_transpose_of_trivial] at this

theorem inv_symm (N : Matrix (Fin n) (Fin n) ℝ) (hN : N.PosDef) : (N⁻¹)ᵀ = N⁻¹ := by
  have := hN.inv.isHermitian
  rwa [IsHermitian, conjTranspose_eq_transpose_of_trivial] at this

theorem projN_mul {m : Nat} (N : Matrix (Fin n) (Fin n) ℝ) (M : Matrix (Fin n) (Fin m) ℝ)
    (hN : N.PosDef) (hM : Function.Injective M.mulVec) : projN N M * M = 0 := by
  have hG := gram_posDef N M hN hM
  have hu := nonsing_inv_mul _ (isUnit_iff_ne_zero.2 hG.det_pos.ne')
  unfold projN
  rw [Matrix.sub_mul, Matrix.mul_assoc _ N⁻¹ M, Matrix.mul_assoc _ Mᵀ, ← Matrix.mul_assoc Mᵀ,
    Matrix.mul_assoc _ _ (Mᵀ * N⁻¹ * M), hu, Matrix.mul_one, sub_self]

theorem projN_symm {m : Nat} (N : Matrix (Fin n) (Fin n) ℝ) (M : Matrix (Fin n) (Fin m) ℝ)
    (hN : N.PosDef) (hM : Function.Injective M.mulVec) : (projN N M)ᵀ = projN N M := by
  have hs := inv_symm N hN
  have hG := inv_symm _ (gram_posDef N M hN hM)
  unfold projN
  rw [transpose_sub, hs, transpose_mul, transpose_mul, transpose_mul, transpose_mul, hs, hG,
    transpose_transpose]
  simp only [Matrix.mul_assoc]

theorem mul_projN {m : Nat} (N : Matrix (Fin n) (Fin n) ℝ) (M : Matrix (Fin n) (Fin m) ℝ)
    (hN : N.PosDef) (hM : Function.Injective M.mulVec) : Mᵀ * projN N M = 0 := by
  have := congrArg Matrix.transpose (projN_mul N M hN hM)
  rwa [transpose_mul, projN_symm N M hN hM, transpose_zero] at this

variable {m : Nat} {M : Matrix (Fin n) (Fin m) ℝ} {b : Base n ℝ} {N : Matrix (Fin n) (Fin n) ℝ}
  {good : Nat → Prop}

theorem margMN1_ok (he : Exact b N good) (hm : good m) (x : Fin n → ℝ) :
    margMN1 m M b x = .ok (Mᵀ *ᵥ (N⁻¹ *ᵥ x)) := by
  unfold margMN1
  rw [he.vec x m M hm]
  simp [bind, Except.bind, asVec]

theorem margMN2_ok (he : Exact b N good) (hm : good m) {k : Nat} (hk : good k)
    (T : Matrix (Fin n) (Fin k) ℝ) : margMN2 m M b k T = .ok (Mᵀ * (N⁻¹ * T)) := by
  unfold margMN2
  rw [he.mat k m T M hk hm]
  simp only [bind, Except.bind, asMat]
  rfl

theorem margCf_ok (he : Exact b N good) (hm : good m) (hM : Function.Injective M.mulVec) :
    margCf m M b = .ok (Mᵀ * N⁻¹ * M) := by
  have hG := gram_posDef N M he.posDef hM
  unfold margCf
  rw [he.mat m m M M hm hm]
  simp only [bind, Except.bind, asMat, posDefOr]
  rw [← Matrix.mul_assoc]
  simp only [and_self, dite_true]
  exact if_pos hG

/-- The solves of `MarginalizingNmat` are the solves with the projected inverse covariance; the
log determinant is the sum of three terms. -/
theorem C55_solve (he : Exact b N good) (hm : good m) (hM : Function.Injective M.mulVec) :
    (∀ r ld, margSolve m M b (.d1 r) .same ld = .ok (.num (r ⬝ᵥ (projN N M *ᵥ r)),
      if ld then some (Real.log N.det + Real.log (Mᵀ * N⁻¹ * M).det + m * Real.log (10 ^ 40))
        else none)) ∧
    (∀ r k (T : Matrix (Fin n) (Fin k) ℝ) ld, good k →
      margSolve m M b (.d1 r) (.other (.d2 k T)) ld =
        .ok (.vec k (Tᵀ *ᵥ (projN N M *ᵥ r)), none)) ∧
    (∀ k (T : Matrix (Fin n) (Fin k) ℝ) ld, good k → margSolve m M b (.d2 k T) .same ld =
        .ok (.mat k k (Tᵀ * (projN N M * T)), none)) ∧
    (∀ r l ld, margSolve m M b (.d1 r) (.other (.d1 l)) ld =
        .ok (.num (l ⬝ᵥ (projN N M *ᵥ r)), none)) ∧
    (∀ k (T : Matrix (Fin n) (Fin k) ℝ) q (L : Matrix (Fin n) (Fin q) ℝ) ld, good k → good q →
      margSolve m M b (.d2 k T) (.other (.d2 q L)) ld =
        .ok (.mat q k (Lᵀ * (projN N M * T)), none)) := by
  have hs := inv_symm N he.posDef
  have hGs := inv_symm _ (gram_posDef N M he.posDef hM)
  have hcf := margCf_ok he hm hM
  set G := Mᵀ * N⁻¹ * M with hG
  have hproj : projN N M = N⁻¹ - N⁻¹ * M * G⁻¹ * Mᵀ * N⁻¹ := rfl
  -- the bilinear form
  have hq : ∀ x y : Fin n → ℝ, y ⬝ᵥ (projN N M *ᵥ x) =
      y ⬝ᵥ (N⁻¹ *ᵥ x) - (Mᵀ *ᵥ (N⁻¹ *ᵥ y)) ⬝ᵥ (G⁻¹ *ᵥ (Mᵀ *ᵥ (N⁻¹ *ᵥ x))) := by
    intro x y
    rw [hproj, sub_mulVec, dotProduct_sub]
    congr 1
    simp only [mulVec_mulVec]
    rw [← vecMul_transpose (Mᵀ * N⁻¹) y, ← dotProduct_mulVec, transpose_mul, hs,
      transpose_transpose, mulVec_mulVec]
    simp only [Matrix.mul_assoc]
  have hQ : ∀ (k q : Nat) (X : Matrix (Fin n) (Fin k) ℝ) (Y : Matrix (Fin n) (Fin q) ℝ),
      Yᵀ * (projN N M * X) = Yᵀ * (N⁻¹ * X) - (Mᵀ * (N⁻¹ * Y))ᵀ * (G⁻¹ * (Mᵀ * (N⁻¹ * X))) := by
    intro k q X Y
    rw [hproj, Matrix.sub_mul, Matrix.mul_sub, transpose_mul, transpose_mul, hs,
      transpose_transpose]
    simp only [Matrix.mul_assoc]
  have hV : ∀ (q : Nat) (x : Fin n → ℝ) (Y : Matrix (Fin n) (Fin q) ℝ),
      Yᵀ *ᵥ (projN N M *ᵥ x) = Yᵀ *ᵥ (N⁻¹ *ᵥ x) -
        (G⁻¹ * (Mᵀ * (N⁻¹ * Y)))ᵀ *ᵥ (Mᵀ *ᵥ (N⁻¹ *ᵥ x)) := by
    intro q x Y
    rw [hproj, sub_mulVec, mulVec_sub]
    congr 1
    rw [transpose_mul, transpose_mul, transpose_mul, hs, hGs, transpose_transpose]
    simp only [mulVec_mulVec, Matrix.mul_assoc]
  refine ⟨?_, ?_, ?_, ?_, ?_⟩
  · intro r ld
    simp only [margSolve, he.num, he.logdet, margMN1_ok he hm, hcf, bind, Except.bind, asNum,
      pure, Except.pure, hq]
  · intro r k T ld hk
    simp only [margSolve, he.vec _ _ _ hk, margMN1_ok he hm, margMN2_ok he hm hk, hcf, bind,
      Except.bind, asVec, dite_true, pure, Except.pure, hV]
  · intro k T ld hk
    simp only [margSolve, he.mat _ _ _ _ hk hk, margMN2_ok he hm hk, hcf, bind,
      Except.bind, asMat, and_self, dite_true, pure, Except.pure, hQ]
    rfl
  · intro r l ld
    simp only [margSolve, he.num, margMN1_ok he hm, hcf, bind, Except.bind, asNum,
      pure, Except.pure, hq]
  · intro k T q L ld hk hqq
    simp only [margSolve, he.mat _ _ _ _ hk hqq, margMN2_ok he hm hk, margMN2_ok he hm hqq, hcf,
      bind, Except.bind, asMat, and_self, dite_true, pure, Except.pure, hQ]
    rfl

/-- C55: adding a combination of design-matrix columns to the residuals changes neither `rᵀ N⁻¹ r`
(with its log determinant) nor `Tᵀ N⁻¹ r`; design-matrix columns are annihilated in both solves,
also as columns of the basis. -/
theorem C55 (he : Exact b N good) (hm : good m) (hM : Function.Injective M.mulVec)
    (r : Fin n → ℝ) (c : Fin m → ℝ) :
    (∀ ld, margSolve m M b (.d1 (r + M *ᵥ c)) .same ld = margSolve m M b (.d1 r) .same ld) ∧
    (∀ k (T : Matrix (Fin n) (Fin k) ℝ) ld, good k →
      margSolve m M b (.d1 (r + M *ᵥ c)) (.other (.d2 k T)) ld =
        margSolve m M b (.d1 r) (.other (.d2 k T)) ld) ∧
    (∃ o, margSolve m M b (.d1 (M *ᵥ c)) .same false = .ok (o, none) ∧ o = .num 0) ∧
    (∀ k (T : Matrix (Fin n) (Fin k) ℝ) ld, good k →
      margSolve m M b (.d1 (M *ᵥ c)) (.other (.d2 k T)) ld = .ok (.vec k 0, none)) ∧
    (∀ k (C : Matrix (Fin m) (Fin k) ℝ) ld, good k →
      margSolve m M b (.d1 r) (.other (.d2 k (M * C))) ld = .ok (.vec k 0, none) ∧
      margSolve m M b (.d2 k (M * C)) .same ld = .ok (.mat k k 0, none)) := by
  obtain ⟨h1, h2, h3, -, -⟩ := C55_solve he hm hM
  have hz := projN_mul N M he.posDef hM
  have hz' := mul_projN N M he.posDef hM
  have hMc : projN N M *ᵥ (M *ᵥ c) = 0 := by rw [mulVec_mulVec, hz, zero_mulVec]
  have hMr : ∀ x, (M *ᵥ c) ⬝ᵥ (projN N M *ᵥ x) = 0 := by
    intro x
    rw [← vecMul_transpose M c, ← dotProduct_mulVec, mulVec_mulVec, hz', zero_mulVec,
      dotProduct_zero]
  refine ⟨?_, ?_, ?_, ?_, ?_⟩
  · intro ld
    rw [h1, h1, mulVec_add, hMc, add_zero, add_dotProduct, hMr, add_zero]
  · intro k T ld hk
    rw [h2 _ _ _ _ hk, h2 _ _ _ _ hk, mulVec_add, hMc, add_zero]
  · exact ⟨.num 0, by rw [h1, hMc]; simp, rfl⟩
  · intro k T ld hk
    rw [h2 _ _ _ _ hk, hMc, mulVec_zero]
  · intro k C ld hk
    rw [h2 _ _ _ _ hk, h3 _ _ _ hk, ← Matrix.mul_assoc (projN N M), hz, transpose_mul, mulVec_mulVec,
      Matrix.mul_assoc, hz']
    simp

-- Diagonal noise and a single constant column (the constant phase offset).
example : Exact (.arr fun _ : Fin 3 => (2 : ℝ)) (diagonal fun _ => 2) (fun _ => True) ∧
    Function.Injective (of fun _ _ => 1 : Matrix (Fin 3) (Fin 1) ℝ).mulVec := by
  refine ⟨arr_exact _ fun _ => by norm_num, ?_⟩
  intro a b h
  have := congrFun h 0
  simp only [mulVec, dotProduct, of_apply, Finset.univ_unique, Fin.default_eq_zero, one_mul,
    Finset.sum_singleton] at this
  funext i
  rw [Subsingleton.elim i 0]
  exact this

/-- When the left array is another object with the entries of the right one, the value is the same
but the log determinant that was asked for is not returned. -/
theorem C55_logdet_dropped (he : Exact b N good) (hm : good m) (hM : Function.Injective M.mulVec)
    (r : Fin n → ℝ) : ∃ o ld, margSolve m M b (.d1 r) .same true = .ok (o, some ld) ∧
      margSolve m M b (.d1 r) (.other (.d1 r)) true = .ok (o, none) := by
  obtain ⟨h1, -, -, h4, -⟩ := C55_solve he hm hM
  exact ⟨_, _, h1 r true, h4 r r true⟩

/-! ### C83 -/

/-- The covariance with independent Gaussian priors of variance `s` on the timing-model
parameters. -/
def wideN (N : Matrix (Fin n) (Fin n) ℝ) (M : Matrix (Fin n) (Fin m) ℝ) (s : ℝ) :
    Matrix (Fin n) (Fin n) ℝ := N + s • (M * Mᵀ)

theorem wideN_inv (hN : N.PosDef) (hM : Function.Injective M.mulVec) (s : ℝ) (hs : 0 < s) :
    (wideN N M s)⁻¹ = N⁻¹ - N⁻¹ * M * (Mᵀ * N⁻¹ * M + s⁻¹ • 1)⁻¹ * Mᵀ * N⁻¹ ∧
    (wideN N M s).det = s ^ m * N.det * (Mᵀ * N⁻¹ * M + s⁻¹ • 1).det := by
  have hNu : IsUnit N.det := isUnit_iff_ne_zero.2 hN.det_pos.ne'
  have hG := gram_posDef N M hN hM
  have hGs : (Mᵀ * N⁻¹ * M + s⁻¹ • 1).PosDef :=
    hG.add (PosDef.one.smul (inv_pos.2 hs))
  have hGu : IsUnit (Mᵀ * N⁻¹ * M + s⁻¹ • (1 : Matrix (Fin m) (Fin m) ℝ)).det :=
    isUnit_iff_ne_zero.2 hGs.det_pos.ne'
  have hNi := mul_nonsing_inv N hNu
  constructor
  · apply inv_eq_right_inv
    have hGi := mul_nonsing_inv _ hGu
    set H := (Mᵀ * N⁻¹ * M + s⁻¹ • (1 : Matrix (Fin m) (Fin m) ℝ))⁻¹ with hH
    unfold wideN
    rw [Matrix.add_mul, Matrix.mul_sub, hNi]
    have e1 : N * (N⁻¹ * M * H * Mᵀ * N⁻¹) = M * H * Mᵀ * N⁻¹ := by
      simp only [← Matrix.mul_assoc]; rw [hNi, Matrix.one_mul]
    have e2 : s • (M * Mᵀ) * (N⁻¹ - N⁻¹ * M * H * Mᵀ * N⁻¹) =
        s • (M * (Mᵀ * N⁻¹)) - s • (M * ((Mᵀ * N⁻¹ * M) * H) * (Mᵀ * N⁻¹)) := by
      rw [Matrix.smul_mul, Matrix.mul_sub, smul_sub]
      simp only [Matrix.mul_assoc]
    have e3 : (Mᵀ * N⁻¹ * M) * H = 1 - s⁻¹ • H := by
      rw [Matrix.add_mul, Matrix.smul_mul, Matrix.one_mul] at hGi
      rw [← hGi]; abel
    rw [e1, e2, e3, Matrix.mul_sub, Matrix.mul_one, Matrix.sub_mul, smul_sub, Matrix.mul_smul,
      Matrix.smul_mul, smul_smul, mul_inv_cancel₀ hs.ne', one_smul, Matrix.mul_assoc (M * H)]
    abel
  · unfold wideN
    rw [← Matrix.smul_mul, det_add_mul _ _ hNu, Matrix.mul_smul]
    have : (1 : Matrix (Fin m) (Fin m) ℝ) + s • (Mᵀ * N⁻¹ * M) =
        s • (Mᵀ * N⁻¹ * M + s⁻¹ • (1 : Matrix (Fin m) (Fin m) ℝ)) := by
      rw [smul_add, smul_smul, mul_inv_cancel₀ hs.ne', one_smul, add_comm]
    rw [this, det_smul, Fintype.card_fin]; ring

open Filter Topology in
/-- C83: `MarginalizingNmat` is the limit of independent Gaussian priors of growing variance `s` on
the timing-model parameters: its quadratic form is the limit of that of `N + s M Mᵀ`, and its log
determinant that of `N + s M Mᵀ` with the diverging `m log s` replaced by its value at `s = 1e40`. -/
theorem C83 (he : Exact b N good) (hm : good m) (hM : Function.Injective M.mulVec)
    (r : Fin n → ℝ) : ∃ q ld, margSolve m M b (.d1 r) .same true = .ok (.num q, some ld) ∧
      Tendsto (fun s => r ⬝ᵥ ((wideN N M s)⁻¹ *ᵥ r)) atTop (𝓝 q) ∧
      Tendsto (fun s => Real.log (wideN N M s).det - m * Real.log s + m * Real.log (10 ^ 40)) atTop
        (𝓝 ld) := by
  obtain ⟨h1, -, -, -, -⟩ := C55_solve he hm hM
  refine ⟨_, _, h1 r true, ?_, ?_⟩
  all_goals
    have hN := he.posDef
    have hG := gram_posDef N M hN hM
    have hlim : Tendsto (fun s : ℝ => Mᵀ * N⁻¹ * M + s⁻¹ • (1 : Matrix (Fin m) (Fin m) ℝ)) atTop
        (𝓝 (Mᵀ * N⁻¹ * M)) := by
      have : Tendsto (fun s : ℝ => Mᵀ * N⁻¹ * M + s⁻¹ • (1 : Matrix (Fin m) (Fin m) ℝ)) atTop
          (𝓝 (Mᵀ * N⁻¹ * M + (0 : ℝ) • (1 : Matrix (Fin m) (Fin m) ℝ))) :=
        tendsto_const_nhds.add (tendsto_inv_atTop_zero.smul_const _)
      rwa [zero_smul, add_zero] at this
    have hdet := (continuous_id.matrix_det.tendsto (Mᵀ * N⁻¹ * M)).comp hlim
  · have hadj := (continuous_id.matrix_adjugate.tendsto (Mᵀ * N⁻¹ * M)).comp hlim
    have hinv : Tendsto
        (fun s : ℝ => (Mᵀ * N⁻¹ * M + s⁻¹ • (1 : Matrix (Fin m) (Fin m) ℝ))⁻¹) atTop
        (𝓝 (Mᵀ * N⁻¹ * M)⁻¹) := by
      have := (hdet.inv₀ hG.det_pos.ne').smul hadj
      rw [Matrix.inv_def (Mᵀ * N⁻¹ * M), Ring.inverse_eq_inv']
      refine this.congr fun s => ?_
      rw [Matrix.inv_def (Mᵀ * N⁻¹ * M + _), Ring.inverse_eq_inv']; rfl
    have hc : Continuous fun A : Matrix (Fin m) (Fin m) ℝ =>
        r ⬝ᵥ ((N⁻¹ - N⁻¹ * M * A * Mᵀ * N⁻¹) *ᵥ r) := by fun_prop
    have := (hc.tendsto (Mᵀ * N⁻¹ * M)⁻¹).comp hinv
    refine this.congr' ?_
    filter_upwards [eventually_gt_atTop (0 : ℝ)] with s hs
    rw [(wideN_inv hN hM s hs).1]; rfl
  · have hlog := (Real.continuousAt_log hG.det_pos.ne').tendsto.comp hdet
    have : Tendsto (fun s : ℝ => Real.log N.det +
        Real.log (Mᵀ * N⁻¹ * M + s⁻¹ • (1 : Matrix (Fin m) (Fin m) ℝ)).det +
          m * Real.log (10 ^ 40)) atTop
        (𝓝 (Real.log N.det + Real.log (Mᵀ * N⁻¹ * M).det + m * Real.log (10 ^ 40))) :=
      (tendsto_const_nhds.add hlog).add tendsto_const_nhds
    refine this.congr' ?_
    filter_upwards [eventually_gt_atTop (0 : ℝ)] with s hs
    have hGs : (Mᵀ * N⁻¹ * M + s⁻¹ • (1 : Matrix (Fin m) (Fin m) ℝ)).PosDef :=
      hG.add (PosDef.one.smul (inv_pos.2 hs))
    rw [(wideN_inv hN hM s hs).2, Real.log_mul (mul_pos (pow_pos hs m) hN.det_pos).ne'
      hGs.det_pos.ne', Real.log_mul (pow_pos hs m).ne' hN.det_pos.ne', Real.log_pow s m]
    ring

end Marg

end Verif.Noise
