import Verif.Spec.Graph
import Verif.Model.Collate
/-
Specifications about the result of a collation.
-/

namespace CollateX.Spec

/-- Exact matching: the default options, with or without segmentation. -/
structure ExactMatching (o : Opts) : Prop where
  astar : o.astar = false
  detect : o.detect = false
  near : o.nearMatch = false

/-- Near matching: `near_match=True`, which requires `segmentation=False`. -/
structure NearMatching (o : Opts) : Prop where
  astar : o.astar = false
  detect : o.detect = false
  seg : o.segmentation = false
  near : o.nearMatch = true

/-- Vertex `v` carries exactly the tokens `ts` for the witness `σ`. -/
def CarriesAt (g : VGraph) (v : VId) (σ : Str) (ts : List Token) : Prop :=
  ∃ x, dget g.nodes v = some x ∧ dget x.tokens σ = some ts

/-- Along `path` the graph reads `ts` for the witness `σ`: the path goes from start to end along edges; its inner vertices
are exactly the vertices that carry tokens of `σ`; these tokens, in the order of the path, are `ts`. -/
structure Reads (g : VGraph) (σ : Str) (path : List VId) (ts : List Token) : Prop where
  edges : ∀ u v, [u, v] <:+: path → (u, v) ∈ g.pairs
  text : ∃ segs : List (VId × List Token), path = startV :: (segs.map Prod.fst ++ [endV]) ∧
    (segs.map Prod.snd).flatten = ts ∧ ∀ q ∈ segs, q.2 ≠ [] ∧ CarriesAt g q.1 σ q.2
  only : ∀ v us, CarriesAt g v σ us → v ∈ path
  nodup : path.Nodup

/-- A longest path from start to end. -/
structure LongestPath (g : VGraph) (path : List VId) : Prop where
  first : path.head? = some startV
  last : path.getLast? = some endV
  edges : ∀ u v, [u, v] <:+: path → (u, v) ∈ g.pairs
  longest : ∀ n, Walk g.pairs startV endV n → n + 1 ≤ path.length

/-- The sigla of the witnesses whose path uses the edge from `u` to `v`, in witness order. -/
def sigillaAlong (ws : List Witness) (paths : List (List VId)) (u v : VId) : List Str :=
  ((ws.zip paths).filter (fun r => decide ([u, v] <:+: r.2))).map (fun r => r.1.sigil)

/-- Nothing is left to join: no vertex but start has a single successor which is not the end and which has no other
predecessor. -/
def FullySegmented (g : VGraph) : Prop :=
  ∀ v c, v ≠ startV → (v, c) ∈ g.pairs → c ≠ endV → (∀ b, (v, b) ∈ g.pairs → b = c) → ∃ a, (a, c) ∈ g.pairs ∧ a ≠ v

/-- The text of a sequence of normalised strings: a blank before each but the first, unless the string begins with a
character that is not a word character. -/
def segmentLabel (cc : CharClass) (l : List Str) : Str :=
  match l with
  | [] => []
  | s :: rest => s ++ rest.flatMap (fun m => (if m.head?.elim true cc.word then [' '] else []) ++ m)

end CollateX.Spec
