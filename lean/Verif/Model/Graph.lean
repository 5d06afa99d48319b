import Verif.Model.Witness
/-
Variant graph, merge, ranking, alignment table and join: `core_classes.py` 49–117 and 205–409.
-/

namespace CollateX

/-- Identity of a vertex object: a natural number (a macro, so that arithmetic tactics see through it). -/
macro "VId" : term => `(Nat)

/-- `VariantGraphVertex`, core_classes.py 205–220. -/
structure Vertex where
  label : Str
  tokens : Dict Str (List Token)
  deriving DecidableEq, Repr

/-- An edge with its `label` attribute. -/
structure Edge where
  src : VId
  tgt : VId
  label : Str
  deriving DecidableEq, Repr

/-- `VariantGraph`, core_classes.py 223–292. networkx keeps nodes and, per node, successors and predecessors
in insertion order; one insertion-ordered edge list gives all these orders by filtering. `near` are the
edges of `near_graph` (for its weights, which only drawings show, see `Model/NearWeights.lean`). Vertex 0 is `start`, vertex 1 is `end`. -/
structure VGraph where
  nodes : Dict VId Vertex
  edges : List Edge
  near : List (VId × VId)
  next : VId
  deriving DecidableEq, Repr

def startV : VId := 0
def endV : VId := 1

/-- core_classes.py 206–208, `VariantGraphVertex.__init__`. An empty label, and an empty siglum, are false
in Python. -/
def mkVertex (token : Option Token) (sigil : Option Str) (label : Option Str) : Vertex :=
  { label :=
      match label with
      | some (c :: cs) => c :: cs
      | _ => match token with | some t => t.str | none => []
    tokens :=
      match sigil, token with
      | some (c :: cs), some t => [(c :: cs, [t])]
      | _, _ => [] }

/-- core_classes.py 210–214, `VariantGraphVertex.add_token`. -/
def Vertex.addToken (v : Vertex) (sigil : Str) (t : Token) : Vertex :=
  match dget v.tokens sigil with
  | some ts => { v with tokens := dset v.tokens sigil (ts ++ [t]) }
  | none => { v with tokens := dset v.tokens sigil [t] }

/-- core_classes.py 224–229, `VariantGraph.__init__`. -/
def VGraph.init : VGraph :=
  { nodes := [(startV, mkVertex none none (some (S "start"))), (endV, mkVertex none none (some (S "end")))]
    edges := []
    near := []
    next := 2 }

/-- core_classes.py 231–236, `VariantGraph.add_vertex` (for a token and a siglum). -/
def VGraph.addVertex (g : VGraph) (t : Token) (sigil : Str) : VGraph × VId :=
  ({ g with nodes := g.nodes ++ [(g.next, mkVertex (some t) (some sigil) none)], next := g.next + 1 }, g.next)

/-- `vertex.add_token(...)` on the vertex object with identity `v`. -/
def VGraph.addTokenAt (g : VGraph) (v : VId) (sigil : Str) (t : Token) : VGraph :=
  { g with nodes := g.nodes.map (fun p => if p.1 = v then (p.1, p.2.addToken sigil t) else p) }

/-- `has_edge` -/
def VGraph.hasEdge (g : VGraph) (u v : VId) : Bool := g.edges.any (fun e => e.src = u ∧ e.tgt = v)

/-- core_classes.py 238–247, `VariantGraph.connect`. -/
def VGraph.connect (g : VGraph) (u v : VId) (sigil : Str) : VGraph :=
  if g.hasEdge u v then
    { g with edges := g.edges.map (fun e =>
        if e.src = u ∧ e.tgt = v then { e with label := e.label ++ (S ", " ++ sigil) } else e) }
  else
    { g with edges := g.edges ++ [⟨u, v, sigil⟩] }

/-- core_classes.py 249–256, `VariantGraph.connect_near` (adding an edge twice keeps one edge). -/
def VGraph.connectNear (g : VGraph) (u v : VId) : VGraph :=
  if (u, v) ∈ g.near then g else { g with near := g.near ++ [(u, v)] }

/-- core_classes.py 258–259 -/
def VGraph.removeEdge (g : VGraph) (u v : VId) : VGraph :=
  { g with edges := g.edges.filter (fun e => ¬ (e.src = u ∧ e.tgt = v)) }

/-- core_classes.py 261–262: `DiGraph.remove_node` also removes the incident edges. -/
def VGraph.removeNode (g : VGraph) (v : VId) : VGraph :=
  { g with nodes := g.nodes.filter (fun p => p.1 ≠ v)
           edges := g.edges.filter (fun e => e.src ≠ v ∧ e.tgt ≠ v) }

/-- core_classes.py 264–265, `vertices()` -/
def VGraph.vertices (g : VGraph) : List VId := g.nodes.map Prod.fst

/-- core_classes.py 274–275, `in_edges(node)` -/
def VGraph.inEdges (g : VGraph) (v : VId) : List Edge := g.edges.filter (fun e => e.tgt = v)

/-- core_classes.py 277–278, `in_near_edges(node)`: sources of the near edges. -/
def VGraph.inNear (g : VGraph) (v : VId) : List VId := (g.near.filter (fun e => e.2 = v)).map Prod.fst

/-- core_classes.py 280–281, `out_edges(node)` -/
def VGraph.outEdges (g : VGraph) (v : VId) : List Edge := g.edges.filter (fun e => e.src = v)

/-! ### merge -/

/-- State of the loop of `merge`: graph, `token_to_vertex`, `last`. -/
structure MergeSt where
  g : VGraph
  t2v : Dict Token VId
  last : VId
  deriving DecidableEq, Repr

/-- core_classes.py 303–312, one iteration of the loop of `CollationAlgorithm.merge`. -/
def mergeStep (sigil : Str) (al : Dict Token VId) (s : MergeSt) (t : Token) : MergeSt :=
  match dget al t with
  | none =>
    let (g1, v) := s.g.addVertex t sigil
    { g := g1.connect s.last v sigil, t2v := dset s.t2v t v, last := v }
  | some v =>
    { g := (s.g.addTokenAt v sigil t).connect s.last v sigil, t2v := s.t2v, last := v }

/-- core_classes.py 295–314, `CollationAlgorithm.merge`. -/
def merge (g : VGraph) (sigil : Str) (tokens : List Token) (al : Dict Token VId) :
    VGraph × Dict Token VId :=
  let s := tokens.foldl (mergeStep sigil al) { g := g, t2v := [], last := startV }
  (s.g.connect s.last endV sigil, s.t2v)

/-! ### ranking -/

/-- `networkx.topological_sort`, as a parameter: nodes and edges in, an order out (or `none`, for
`NetworkXUnfeasible`). -/
abbrev TopoFn := List VId → List (VId × VId) → Option (List VId)

/-- `VariantGraphRanking`, core_classes.py 371–378. -/
structure Ranking where
  byVertex : Dict VId Nat
  byRank : Dict Nat (List VId)
  deriving DecidableEq, Repr

/-- `topological_sort(graph.graph)` -/
def VGraph.topo (ts : TopoFn) (g : VGraph) : Py (List VId) :=
  match ts g.vertices (g.edges.map (fun e => (e.src, e.tgt))) with
  | some o => .ok o
  | none => .error .unfeasible

/-- core_classes.py 389–392: `rank = -1; for (source, _) in in_edges: rank = max(rank, byVertex[source]);
rank += 1`. The accumulator holds `rank + 1`. -/
def rankOfIn (bv : Dict VId Nat) : List Edge → Nat → Py Nat
  | [], acc => .ok acc
  | e :: es, acc => do
    let r ← dgetE bv e.src
    rankOfIn bv es (max acc (r + 1))

/-- core_classes.py 388–394, the first loop of `VariantGraphRanking.of`. -/
def rankPass (g : VGraph) : List VId → Ranking → Py Ranking
  | [], r => .ok r
  | v :: vs, r => do
    let k ← rankOfIn r.byVertex (g.inEdges v) 0
    rankPass g vs { byVertex := dset r.byVertex v k, byRank := setdefaultAppend r.byRank k v }

/-- core_classes.py 400–408, one near edge `(u, v)`. `list.remove` raises ValueError when absent. -/
def nearStep (v : VId) (r : Ranking) (u : VId) : Py Ranking := do
  let ur ← dgetE r.byVertex u
  let vr ← dgetE r.byVertex v
  let bv := dset r.byVertex v ur
  let old ← dgetE r.byRank vr
  if v ∈ old then
    let br := dset r.byRank vr (old.erase v)
    let new ← dgetE br ur
    .ok { byVertex := bv, byRank := dset br ur (new ++ [v]) }
  else .error .valueError

/-- core_classes.py 400–408: the near edges into `v`. -/
def nearSteps (v : VId) : List VId → Ranking → Py Ranking
  | [], r => .ok r
  | u :: us, r => do
    let r' ← nearStep v r u
    nearSteps v us r'

/-- core_classes.py 397–408, the second loop of `VariantGraphRanking.of`. -/
def nearPass (g : VGraph) : List VId → Ranking → Py Ranking
  | [], r => .ok r
  | v :: vs, r => do
    let r' ← nearSteps v (g.inNear v) r
    nearPass g vs r'

/-- core_classes.py 383–409, `VariantGraphRanking.of`. -/
def rankingOf (ts : TopoFn) (g : VGraph) : Py Ranking := do
  let order ← g.topo ts
  let r ← rankPass g order { byVertex := [], byRank := [] }
  nearPass g order.reverse r

/-! ### alignment table -/

/-- `Column`, core_classes.py 64–70. -/
structure Column where
  tokens : Dict Str (List Token)
  variant : Bool
  deriving DecidableEq, Repr

/-- `Row`, core_classes.py 49–61. -/
structure Row where
  header : Str
  cells : List (Option (List Token))
  deriving DecidableEq, Repr

/-- `AlignmentTable`, core_classes.py 73–117. -/
structure Table where
  columns : List Column
  rows : List Row
  deriving DecidableEq, Repr

/-- core_classes.py 98–99: `for (sigil, token) in vertex.tokens.items(): column.put(sigil, token)`. -/
def Column.putAll (c : Column) (d : Dict Str (List Token)) : Column :=
  { c with tokens := dupdate c.tokens d }

/-- core_classes.py 92–101, the loop over the vertices of one rank. -/
def columnLoop (g : VGraph) (nVertices nWitnesses : Nat) : List VId → Option Column → Option Column
  | [], c => c
  | v :: vs, c =>
    if v = startV ∨ v = endV then columnLoop g nVertices nWitnesses vs c
    else
      let c0 := c.getD { tokens := [], variant := false }
      let c1 := c0.putAll (match dget g.nodes v with | some x => x.tokens | none => [])
      let c2 := { c1 with variant := decide (nVertices > 1) || decide (c1.tokens.length ≠ nWitnesses) }
      columnLoop g nVertices nWitnesses vs (some c2)

/-- core_classes.py 83–114, `AlignmentTable._construct_table`. -/
def mkTable (ws : Collation) (g : VGraph) (r : Ranking) : Table :=
  let cols := r.byRank.filterMap (fun p => columnLoop g p.2.length ws.length p.2 none)
  { columns := cols
    rows := ws.map (fun w => { header := w.sigil, cells := cols.map (fun c => dget c.tokens w.sigil) }) }

/-! ### join -/

/-- core_classes.py 360–363: a space is put before a label that does not start with a non-word character. -/
def joinLabel (cc : CharClass) (l m : Str) : Str :=
  match m with
  | c :: _ => if cc.word c then l ++ (' ' :: m) else l ++ m
  | [] => l ++ (' ' :: m)

/-- core_classes.py 365–366: `for siglum, token in join_candidate.tokens.items(): vertex.add_token(siglum,
token[0])`. -/
def joinTokens (v : Vertex) : Dict Str (List Token) → Py Vertex
  | [] => .ok v
  | (s, ts) :: d =>
    match ts with
    | [] => .error .indexError
    | t :: _ => joinTokens (v.addToken s t) d

/-- `vertex` and `join_candidate` are vertex objects of the graph. -/
def VGraph.vertexE (g : VGraph) (v : VId) : Py Vertex := dgetE g.nodes v

/-- Replace the contents of vertex `v`. -/
def VGraph.setVertex (g : VGraph) (v : VId) (x : Vertex) : VGraph :=
  { g with nodes := g.nodes.map (fun p => if p.1 = v then (p.1, x) else p) }

/-- core_classes.py 356–366, `join_vertex_and_join_candidate`. -/
def joinVertices (cc : CharClass) (g : VGraph) (cand v : VId) : Py VGraph := do
  let x ← g.vertexE v
  let y ← g.vertexE cand
  let x' ← joinTokens { x with label := joinLabel cc x.label y.label } y.tokens
  .ok (g.setVertex v x')

/-- core_classes.py 343–345: move the outgoing edges of the candidate to the vertex. -/
def moveEdges (g : VGraph) (cand v : VId) : List Edge → VGraph
  | [] => g
  | e :: es => moveEdges ((g.removeEdge cand e.tgt).connect v e.tgt e.label) cand v es

/-- core_classes.py 328–353, the `while` loop of `join`. The queue's head is its left end, `fuel` bounds the number
of iterations. -/
def joinLoop (cc : CharClass) : Nat → VGraph → List VId → List VId → Py VGraph
  | _, g, _, [] => .ok g
  | 0, _, _, _ :: _ => .error .outOfFuel
  | fuel + 1, g, processed, v :: queue =>
    let out := g.outEdges v
    let finish : Unit → Py VGraph := fun _ =>
      let processed' := v :: processed
      joinLoop cc fuel g processed'
        ((((out.map Edge.tgt).filter (fun m => m ∉ processed')).reverse) ++ queue)
    match out with
    | [e] =>
      if e.tgt ≠ endV ∧ (g.inEdges e.tgt).length = 1 then do
        let g1 ← joinVertices cc g e.tgt v
        let g2 := moveEdges g1 e.tgt v (g1.outEdges e.tgt)
        let g3 := (g2.removeEdge v e.tgt).removeNode e.tgt
        joinLoop cc fuel g3 processed (v :: queue)
      else finish ()
    | _ => finish ()

/-- Enough iterations for `join` on a graph with `n` nodes (see the termination theorem). -/
def joinFuel (g : VGraph) : Nat := (g.nodes.length + 2) ^ (g.nodes.length + 2)

/-- core_classes.py 328–353, `join`. -/
def join (cc : CharClass) (g : VGraph) : Py VGraph :=
  joinLoop cc (joinFuel g) g [] ((g.outEdges startV).map Edge.tgt).reverse

end CollateX
