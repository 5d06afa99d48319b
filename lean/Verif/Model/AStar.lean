import Verif.Model.Basic
/-
`astar.py`: best-first search.
-/

namespace CollateX

/-- What a subclass of `AStar` and of `AStarNode` supplies (astar.py 5–9, 61–66). Simplifications: costs and heuristic values are
integers; they depend on the nodes alone; two node objects are equal only if they are the same object, so that the attributes of
a node can be kept in functions on the nodes (the table nodes of `experimental_astar_aligner.py` are such objects). -/
structure SearchProblem (α : Type) where
  children : α → List α
  cost : α → α → Int
  heuristic : α → Int
  isEnd : α → Bool

/-- astar.py 55–59 and 13–20: the attributes `g`, `h`, `parent` of the nodes, and the variables `heap` and `visited` (the most
recently visited node first). -/
structure SearchSt (α : Type) where
  g : α → Int
  h : α → Int
  parent : α → Option α
  heap : List α
  visited : List α

variable {α : Type} [DecidableEq α]

/-- Stable insertion by key. -/
def insertBy (key : α → Int) (x : α) : List α → List α
  | [] => [x]
  | y :: l => if key x ≤ key y then x :: y :: l else y :: insertBy key x l

/-- `l.sort(key=key)`, a stable sort. -/
def sortByKey (key : α → Int) : List α → List α
  | [] => []
  | x :: l => insertBy key x (sortByKey key l)

/-- Assignment to an attribute of a node. -/
def assign {β : Type} (f : α → β) (a : α) (b : β) : α → β := fun x => if x = a then b else f x

/-- astar.py 31–43, one round of the loop over the children. -/
def visitChild (P : SearchProblem α) (node : α) (s : SearchSt α) (child : α) : SearchSt α :=
  if child ∈ s.visited then s
  else
    let tentative := s.g node + P.cost node child
    if child ∉ s.heap ∨ tentative < s.g child then
      { s with
        parent := assign s.parent child (some node)
        g := assign s.g child tentative
        h := assign s.h child (P.heuristic child)
        heap := if child ∉ s.heap then s.heap ++ [child] else s.heap }
    else s

/-- astar.py 48–53, the loop of `reconstruct_path`, building the reversed path in reverse; the first argument is fuel. -/
def reconstruct (parent : α → Option α) : Nat → α → List α → Py (List α)
  | 0, _, _ => .error .outOfFuel
  | f + 1, current, path =>
    match parent current with
    | none => .ok path
    | some m => reconstruct parent f m (current :: path)

/-- astar.py 22–46, the loop of `search`; the first argument is fuel. -/
def searchLoop (P : SearchProblem α) : Nat → SearchSt α → Py (Option (List α))
  | 0, _ => .error .outOfFuel
  | f + 1, s =>
    match sortByKey (fun x => s.g x + s.h x) s.heap with
    | [] => .ok none
    | node :: rest =>
      if P.isEnd node then (reconstruct s.parent (s.visited.length + 1) node []).map some
      else searchLoop P f ((P.children node).foldl (visitChild P node) { s with heap := rest, visited := node :: s.visited })

/-- astar.py 11–46, `search`, on fresh nodes. -/
def search (P : SearchProblem α) (fuel : Nat) (start : α) : Py (Option (List α)) :=
  searchLoop P fuel { g := fun _ => 0, h := fun _ => 0, parent := fun _ => none, heap := [start], visited := [] }

end CollateX
