import Verif.Model.Graph
/-
Specifications about directed graphs, topological orders and ranks. They only mention the nodes and edges of a graph.
-/

namespace CollateX

/-- The edges of a variant graph, without labels. -/
def VGraph.pairs (g : VGraph) : List (VId × VId) := g.edges.map (fun e => (e.src, e.tgt))

namespace Spec

/-- `Walk es u v n`: a walk of `n` edges from `u` to `v`. -/
inductive Walk (es : List (VId × VId)) : VId → VId → Nat → Prop
  | nil (u : VId) : Walk es u u 0
  | snoc {u v w : VId} {n : Nat} : Walk es u v n → (v, w) ∈ es → Walk es u w (n + 1)

/-- No directed cycle: a closed walk has no edges. -/
def NoCycle (es : List (VId × VId)) : Prop := ∀ u n, Walk es u u n → n = 0

/-- The edges go up in some numbering of the nodes. -/
def Layered (es : List (VId × VId)) : Prop := ∃ h : VId → Nat, ∀ p ∈ es, h p.1 < h p.2

/-- `o` is a topological order of the graph: it lists every node once, and the source of an edge before its target. -/
structure IsTopo (nodes : List VId) (es : List (VId × VId)) (o : List VId) : Prop where
  perm : o.Perm nodes
  before : ∀ p ∈ es, ∀ pre post, o = pre ++ p.2 :: post → p.1 ∈ pre

/-- What is assumed of `networkx.topological_sort`: on a graph without directed cycles it returns a topological order. -/
def TopoSpec (ts : TopoFn) : Prop :=
  ∀ nodes es, nodes.Nodup → (∀ p ∈ es, p.1 ∈ nodes ∧ p.2 ∈ nodes) → Layered es →
    ∃ o, ts nodes es = some o ∧ IsTopo nodes es o

/-- `r` is the length of a longest walk that ends in `v`. -/
def LongestTo (es : List (VId × VId)) (v : VId) (r : Nat) : Prop :=
  (∃ u, Walk es u v r) ∧ ∀ u n, Walk es u v n → n ≤ r

end Spec
end CollateX
