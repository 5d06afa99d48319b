import Verif.Model.Graph
/-
A concrete topological sort, used to run the model on examples (the theorems hold for every topological sort).
-/

namespace CollateX

/-- Repeatedly take the first node without incoming edges. -/
def kahnF : Nat → List VId → List (VId × VId) → Option (List VId)
  | _, [], _ => some []
  | 0, _ :: _, _ => none
  | f + 1, n :: ns, es =>
    match (n :: ns).find? (fun v => es.all (fun e => e.2 ≠ v)) with
    | none => none
    | some v => (kahnF f ((n :: ns).erase v) (es.filter (fun e => e.1 ≠ v))).map (fun l => v :: l)

/-- Kahn's algorithm. -/
def kahn : TopoFn := fun nodes edges => kahnF nodes.length nodes edges

end CollateX
