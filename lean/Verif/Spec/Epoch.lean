import Verif.Spec.Partition
import Mathlib.Algebra.Order.Ring.Defs
import Mathlib.Data.Set.Finite.Basic
import Mathlib.Order.WellFoundedSet
import Mathlib.Tactic.Linarith

/-!
# What observing epochs are
-/

namespace Verif.Quantize

variable {K : Type} [Ring K] [LinearOrder K] [IsStrictOrderedRing K]

/-- The first times of the epochs of the times `V`: times of `V`, at least `dt` apart, such that every time of `V` is less than `dt`
after one of them. -/
structure Starts (V R : Set K) (dt : K) : Prop where
  sub : R ⊆ V
  apart : ∀ r ∈ R, ∀ r' ∈ R, r < r' → r + dt ≤ r'
  cover : ∀ t ∈ V, ∃ r ∈ R, r ≤ t ∧ t < r + dt

/-- There is only one set of first times. -/
theorem starts_unique {V R R' : Set K} {dt : K} (hV : V.Finite) (h : Starts V R dt) (h' : Starts V R' dt) : R = R' := by
  have key : ∀ t ∈ V, (t ∈ R ↔ t ∈ R') := by
    intro t ht
    refine Set.WellFoundedOn.induction hV.wellFoundedOn (r := (· < ·)) (P := fun t => t ∈ R ↔ t ∈ R') ht ?_
    intro t ht ih
    have half : ∀ {R R' : Set K}, Starts V R dt → Starts V R' dt → (∀ y ∈ V, y < t → (y ∈ R' → y ∈ R)) → t ∈ R → t ∈ R' := by
      intro R R' h h' ih hr
      obtain ⟨r, hr', h1, h2⟩ := h'.cover t ht
      rcases h1.eq_or_lt with rfl | h1
      · exact hr'
      · exact absurd h2 (not_lt.2 (h.apart r (ih r (h'.sub hr') h1 hr') t hr h1))
    exact ⟨half h h' fun y hy hlt => (ih y hy hlt).2, half h' h fun y hy hlt => (ih y hy hlt).1⟩
  ext t
  exact ⟨fun hr => (key t (h.sub hr)).1 hr, fun hr => (key t (h'.sub hr)).2 hr⟩

/-- The times of the TOAs of a mask. -/
def maskTimes (toas : List K) (mask : Mask) : Set K := {t | ∃ x, InMask mask x ∧ toas.getD x 0 = t}

/-- TOA `x` of the mask is in the epoch that starts at `r`. -/
def Within (toas : List K) (dt : K) (mask : Mask) (r : K) (x : Nat) : Prop :=
  InMask mask x ∧ r ≤ toas.getD x 0 ∧ toas.getD x 0 < r + dt

/-- Two TOAs of the mask are in one epoch with at least two TOAs. -/
def Together (toas : List K) (dt : K) (mask : Mask) (i j : Nat) : Prop :=
  ∃ R, Starts (maskTimes toas mask) R dt ∧ ∃ r ∈ R, Within toas dt mask r i ∧ Within toas dt mask r j ∧
    ∃ x y, x ≠ y ∧ Within toas dt mask r x ∧ Within toas dt mask r y

end Verif.Quantize
