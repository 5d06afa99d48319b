import Verif.Model.Graph
/-
`near_matching.py` 11–90.
-/

namespace CollateX

/-- `Levenshtein.ratio`, as a parameter. Only the order of its values matters, so they are naturals here. -/
abbrev RatioFn := Str → Str → Nat

/-- core_classes.py 216–217, `str(vertex)`. -/
def VGraph.vertexStr (g : VGraph) (v : VId) : Str :=
  match dget g.nodes v with
  | some x => if x.label = [] then S "no label" else x.label
  | none => S "no label"

/-- near_matching.py 71–72: `flatten([ranking.byRank[rank] for rank in range(lo, hi)])`; `k` ranks from `lo`. -/
def verticesOfRanks (r : Ranking) : Nat → Nat → Py (List VId)
  | _, 0 => .ok []
  | lo, k + 1 => do
    let l ← dgetE r.byRank lo
    let ls ← verticesOfRanks r (lo + 1) k
    .ok (l ++ ls)

/-- near_matching.py 74–80: the first candidate with the highest ratio (`max` of an empty dict raises ValueError). -/
def winner (score : VId → Nat) : List VId → Py VId
  | [] => .error .valueError
  | c :: cs => .ok (cs.foldl (fun best d => if score d > score best then d else best) c)

/-- near_matching.py 68: the ranks of the targets of a vertex's outgoing edges. -/
def targetRanks (r : Ranking) : List Edge → Py (List Nat)
  | [] => .ok []
  | e :: es => do
    let k ← dgetE r.byVertex e.tgt
    let ks ← targetRanks r es
    .ok (k :: ks)

/-- near_matching.py 63–86, one incoming edge of `v`. -/
def nearEdge (ts : TopoFn) (ratio : RatioFn) (v : VId) (s : VGraph × Ranking) (e : Edge) : Py (VGraph × Ranking) := do
  let rv ← dgetE s.2.byVertex v
  let rs ← dgetE s.2.byVertex e.src
  if (rv : Int) - rs > 1 then do
    let outs ← targetRanks s.2 (s.1.outEdges e.src)
    if 1 ∈ outs.map (fun (k : Nat) => (k : Int) - rs) then .ok s
    else do
      let cands ← verticesOfRanks s.2 rs (rv - rs)
      let w ← winner (fun c => ratio (s.1.vertexStr e.src) (s.1.vertexStr c)) (cands.filter (fun c => c ≠ e.src))
      let g' := s.1.connectNear w e.src
      let r' ← rankingOf ts g'
      .ok (g', r')
  else .ok s

/-- near_matching.py 62–86, the incoming edges of `v`. -/
def nearEdges (ts : TopoFn) (ratio : RatioFn) (v : VId) : List Edge → VGraph × Ranking → Py (VGraph × Ranking)
  | [], s => .ok s
  | e :: es, s => do
    let s' ← nearEdge ts ratio v s e
    nearEdges ts ratio v es s'

/-- near_matching.py 31–86, the loop over the vertices. -/
def nearVertices (ts : TopoFn) (ratio : RatioFn) : List VId → VGraph × Ranking → Py (VGraph × Ranking)
  | [], s => .ok s
  | v :: vs, s => do
    let s' ← nearEdges ts ratio v (s.1.inEdges v) s
    nearVertices ts ratio vs s'

/-- near_matching.py 29–90, `perform_near_match`. -/
def performNearMatch (ts : TopoFn) (ratio : RatioFn) (g : VGraph) (r : Ranking) : Py (VGraph × Ranking) := do
  let order ← g.topo ts
  let s ← nearVertices ts ratio order.reverse (g, r)
  let r' ← rankingOf ts s.1
  .ok (s.1, r')

end CollateX
