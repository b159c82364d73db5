import Verif.Model.Basic
import Mathlib.Order.Defs.LinearOrder

/-! Independent vocabulary for the pulsar-array properties. -/

namespace Verif.PulsarData

/-- `out` is `raw` read at the positions `q`, in that order, all positions being in range. -/
def Picks {α : Type} (raw : List α) (q : List Nat) (out : List α) : Prop :=
  out.map some = q.map fun i => raw[i]?

/-- `q` lists each position below `n` satisfying `P` exactly once, in time order, simultaneous
TOAs staying in file order. -/
def TimeOrdered {K : Type} [LinearOrder K] (raw : List K) (P : K → Prop) (q : List Nat) : Prop :=
  q.Nodup ∧ (∀ i, i ∈ q ↔ ∃ t, raw[i]? = some t ∧ P t) ∧
  ∀ (a b i j : Nat), a < b → q[a]? = some i → q[b]? = some j →
    ∃ ti tj, raw[i]? = some ti ∧ raw[j]? = some tj ∧ (ti < tj ∨ (ti = tj ∧ i < j))

/-- The read `r` succeeds and returns `raw` at the positions `q`. -/
def ReadsAs {α : Type} (raw : List α) (q : List Nat) (r : Except PyErr (List α)) : Prop :=
  ∃ out, r = .ok out ∧ Picks raw q out

end Verif.PulsarData
