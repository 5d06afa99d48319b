import Verif.Spec.Placing
import Verif.Spec.Graph
/-
C119: which vertices near matching can move.
-/

namespace CollateX.Spec
open CollateX

/-- A vertex that near matching can move: something follows it, but nothing in the next column. -/
def Movable (g : VGraph) (rk : Ranking) (u : VId) : Prop :=
  (∃ v, (u, v) ∈ g.pairs) ∧ ∃ a, dget rk.byVertex u = some a ∧ ∀ v, (u, v) ∈ g.pairs → dget rk.byVertex v ≠ some (a + 1)

/-- No row of the table has an empty cell directly after a filled one. -/
def FlushRight (t : Table) : Prop :=
  ∀ row ∈ t.rows, ∀ j, j + 1 < t.columns.length → cellAt row j ≠ none → cellAt row (j + 1) ≠ none

end CollateX.Spec
