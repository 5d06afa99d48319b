import Verif.Model.AStar
/-
The edit graph searched by `experimental_astar_aligner.py`, with the costs of `suffix_based_scorer.py`.
-/

namespace CollateX

/-- suffix_based_scorer.py 101–104, the results of the match function: 0, 1 and -1. -/
inductive MatchKind where
  | full | near | no
  deriving DecidableEq, Repr

/-- The two witnesses and the match function of the scorer (`scorer.match_function`, a parameter of the model). -/
structure EditInput (α : Type) where
  tokensA : List α
  tokensB : List α
  kind : α → α → MatchKind

variable {α : Type}

/-- suffix_based_scorer.py 42–74, `score_cell` for a replacement (`edit_operation == 0`): what the score loses. All costs are twice
those of the code, to avoid the 0.5 of line 66. -/
def MatchKind.cost : MatchKind → Int
  | .full => 0
  | .near => 1
  | .no => 4

/-- The result of the match function for the cell in row `y` and column `x`, both at least 1. -/
def EditInput.kindAt (I : EditInput α) (y x : Nat) : MatchKind :=
  match I.tokensA[x - 1]?, I.tokensB[y - 1]? with
  | some a, some b => I.kind a b
  | _, _ => .no

/-- experimental_astar_aligner.py 170–181, `move_cost`, together with `score_cell`: a step to row 0 or column 0, and any step that is
not diagonal, costs 1 (here 2). The nodes are the pairs (y, x). -/
def EditInput.cost (I : EditInput α) (n other : Nat × Nat) : Int :=
  if other.2 = 0 ∨ other.1 = 0 then 2
  else if other.2 = n.2 + 1 ∧ other.1 = n.1 + 1 then (I.kindAt other.1 other.2).cost
  else 2

/-- experimental_astar_aligner.py 193–207, `create_childnodes`. -/
def EditInput.children (I : EditInput α) (n : Nat × Nat) : List (Nat × Nat) :=
  (if n.1 < I.tokensB.length then [(n.1 + 1, n.2)] else []) ++
  (if n.2 < I.tokensA.length then [(n.1, n.2 + 1)] else []) ++
  (if n.1 < I.tokensB.length ∧ n.2 < I.tokensA.length then [(n.1 + 1, n.2 + 1)] else [])

/-- experimental_astar_aligner.py 210–211 and suffix_based_scorer.py 76–90: the heuristic, with the length of the second witness for
both lengths (twice the value of the code). -/
def EditInput.heuristic (I : EditInput α) (n : Nat × Nat) : Int :=
  2 * (((I.tokensB.length : Int) - n.2) - ((I.tokensB.length : Int) - n.1)).natAbs

/-- experimental_astar_aligner.py 164–167, `is_end_node`. -/
def EditInput.isEnd (I : EditInput α) (n : Nat × Nat) : Bool :=
  n.1 = I.tokensB.length ∧ n.2 = I.tokensA.length

/-- The search problem of `AstarEditGraphAligner`. -/
def EditInput.problem (I : EditInput α) : SearchProblem (Nat × Nat) where
  children := I.children
  cost := I.cost
  heuristic := I.heuristic
  isEnd := I.isEnd

/-- astar.py 31–43 with the side effect of `move_cost` on the attribute `match` of the child (suffix_based_scorer.py 58): it is set
whenever a diagonal step to the child with a full match is *considered*. -/
def EditInput.visit (I : EditInput α) (node : Nat × Nat) (r : SearchSt (Nat × Nat) × List (Nat × Nat)) (child : Nat × Nat) :
    SearchSt (Nat × Nat) × List (Nat × Nat) :=
  (visitChild I.problem node r.1 child,
    if child ∈ r.1.visited then r.2
    else if child = (node.1 + 1, node.2 + 1) ∧ I.kindAt child.1 child.2 = .full then child :: r.2 else r.2)

/-- astar.py 22–46, `search`, with the nodes whose attribute `match` is set; the first argument is fuel. -/
def EditInput.loop (I : EditInput α) : Nat → SearchSt (Nat × Nat) × List (Nat × Nat) → Py (Option (List (Nat × Nat)) × List (Nat × Nat))
  | 0, _ => .error .outOfFuel
  | f + 1, (s, flags) =>
    match sortByKey (fun x => s.g x + s.h x) s.heap with
    | [] => .ok (none, flags)
    | node :: rest =>
      if I.isEnd node then (reconstruct s.parent (s.visited.length + 1) node []).map (fun p => (some p, flags))
      else I.loop f ((I.children node).foldl (I.visit node) ({ s with heap := rest, visited := node :: s.visited }, flags))

/-- experimental_astar_aligner.py 96–109, the first part of `_align_astar`: the search in a fresh table. If exactly one of the witnesses
is empty, line 172 or 173 takes the last token of an empty list. -/
def EditInput.search (I : EditInput α) : Py (Option (List (Nat × Nat)) × List (Nat × Nat)) :=
  if (I.tokensA = [] ∧ I.tokensB ≠ []) ∨ (I.tokensA ≠ [] ∧ I.tokensB = []) then .error .indexError
  else I.loop ((I.tokensA.length + 1) * (I.tokensB.length + 1) + 1)
    ({ g := fun _ => 0, h := fun _ => 0, parent := fun _ => none, heap := [(0, 0)], visited := [] }, [])

/-- experimental_astar_aligner.py 140–146, `newer_add_to_superbase`. -/
def EditInput.addSegment (I : EditInput α) (lastX lastY x y : Nat) (superbase : List α) : List α :=
  if x > lastX + 1 ∨ y > lastY + 1 then
    superbase ++ (I.tokensA.take (x - 1)).drop lastX ++ (I.tokensB.take (y - 1)).drop lastY
  else superbase

/-- experimental_astar_aligner.py 119–133, the loop over the path: the alignment as a dict from positions in the second witness to
positions in the first (the code has the vertex of that token), the superbase, and the last match (x, y). -/
def EditInput.walk (I : EditInput α) (flags : List (Nat × Nat)) : List (Nat × Nat) → Dict Nat Nat × List α × Nat × Nat →
    Dict Nat Nat × List α × Nat × Nat
  | [], r => r
  | e :: path, (al, sb, lx, ly) =>
    if e ∈ flags then
      I.walk flags path (dset al (e.1 - 1) (e.2 - 1),
        I.addSegment lx ly e.2 e.1 sb ++ (I.tokensA[e.2 - 1]?).toList, e.2, e.1)
    else I.walk flags path (al, sb, lx, ly)

/-- experimental_astar_aligner.py 96–138, `_align_astar`: the alignment and the new superbase. -/
def EditInput.align (I : EditInput α) : Py (Dict Nat Nat × List α) := do
  match ← I.search with
  | (none, _) => .error .typeError
  | (some path, flags) =>
    let r := I.walk flags path ([], [], 0, 0)
    .ok (r.1, I.addSegment r.2.2.1 r.2.2.2 I.tokensA.length I.tokensB.length r.2.1)

end CollateX
