import Verif.Model.NearMatching
import Verif.Model.Display
/-
The weights of near-match edges: `near_matching.py` 29–90, `core_classes.py` 249–256, `display_module.py` 105–110. `Model/NearMatching.lean`
models the same lines without the weights, which play no part in the ranking.
-/

namespace CollateX

/-- The weights of the edges of `near_graph`. -/
abbrev Weights := Dict (Nat × Nat) Nat

/-- near_matching.py 79: `max(levenshtein_dict)`, the highest ratio of a candidate (ValueError for no candidates). -/
def highest : List Nat → Py Nat
  | [] => .error .valueError
  | a :: as => .ok (as.foldl max a)

/-- near_matching.py 63–86 with the weight given to the edge; core_classes.py 255: adding an edge again overwrites its weight. -/
def nearEdgeW (ts : TopoFn) (ratio : RatioFn) (v : VId) (s : VGraph × Ranking × Weights) (e : Edge) : Py (VGraph × Ranking × Weights) := do
  let rv ← dgetE s.2.1.byVertex v
  let rs ← dgetE s.2.1.byVertex e.src
  if (rv : Int) - rs > 1 then do
    let outs ← targetRanks s.2.1 (s.1.outEdges e.src)
    if 1 ∈ outs.map (fun (k : Nat) => (k : Int) - rs) then .ok s
    else do
      let cands ← verticesOfRanks s.2.1 rs (rv - rs)
      let cands := cands.filter (fun c => c ≠ e.src)
      let weight ← highest (cands.map (fun c => ratio (s.1.vertexStr e.src) (s.1.vertexStr c)))
      let w ← winner (fun c => ratio (s.1.vertexStr e.src) (s.1.vertexStr c)) cands
      let g' := s.1.connectNear w e.src
      let r' ← rankingOf ts g'
      .ok (g', r', dset s.2.2 (w, e.src) weight)
  else .ok s

/-- near_matching.py 62–86, the incoming edges of `v`. -/
def nearEdgesW (ts : TopoFn) (ratio : RatioFn) (v : VId) : List Edge → VGraph × Ranking × Weights → Py (VGraph × Ranking × Weights)
  | [], s => .ok s
  | e :: es, s => do
    let s' ← nearEdgeW ts ratio v s e
    nearEdgesW ts ratio v es s'

/-- near_matching.py 31–86, the loop over the vertices. -/
def nearVerticesW (ts : TopoFn) (ratio : RatioFn) : List VId → VGraph × Ranking × Weights → Py (VGraph × Ranking × Weights)
  | [], s => .ok s
  | v :: vs, s => do
    let s' ← nearEdgesW ts ratio v (s.1.inEdges v) s
    nearVerticesW ts ratio vs s'

/-- near_matching.py 29–90, `perform_near_match`. -/
def performNearMatchW (ts : TopoFn) (ratio : RatioFn) (g : VGraph) (r : Ranking) : Py (VGraph × Ranking × Weights) := do
  let order ← g.topo ts
  let s ← nearVerticesW ts ratio order.reverse (g, r, [])
  let r' ← rankingOf ts s.1
  .ok (s.1, r', s.2.2)

/-- display_module.py 107–110: the labels of the near-match edges, in the order in which `drawGraph` draws them. `fmt` is
`'{:3.2f}'.format`. -/
def weightLabels (fmt : Nat → Str) (W : Weights) : List (VId × VId) → Py (List Str)
  | [] => .ok []
  | e :: es => do
    let w ← dgetE W e
    let rest ← weightLabels fmt W es
    .ok (fmt w :: rest)

/-- The labels of the near-match edges of a graph. -/
def nearLabels (fmt : Nat → Str) (W : Weights) (g : VGraph) : Py (List Str) :=
  weightLabels fmt W (g.vertices.flatMap (fun v => g.near.filter (fun e => e.1 = v)))

end CollateX
