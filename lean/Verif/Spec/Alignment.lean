/-
Specification of the edit graph of a witness with `h` tokens and a graph with columns (ranks) `0 .. n-1`. Nodes are pairs
(column position, token position). `M i r` says whether token `i` can match column `r`.
-/

namespace CollateX.Spec

/-- The three kinds of steps. -/
inductive Step where
  | right | down | diag

/-- Where a step leads. -/
def Step.move : Step → Nat × Nat → Nat × Nat
  | .right, (x, y) => (x + 1, y)
  | .down, (x, y) => (x, y + 1)
  | .diag, (x, y) => (x + 1, y + 1)

/-- What a step scores. Skipping a column: −1. A diagonal step consumes token `y` and column `x`: +1 if they match, −1
otherwise. A vertical step consumes token `y` and stays in the column consumed last (`x - 1`): +1 if both this token and
the token before it match that column, −1 otherwise. -/
def Step.score (M : Nat → Nat → Bool) : Step → Nat × Nat → Int
  | .right, _ => -1
  | .diag, (x, y) => if M y x then 1 else -1
  | .down, (x, y) => if 0 < x ∧ 0 < y ∧ M (y - 1) (x - 1) ∧ M y (x - 1) then 1 else -1

/-- Where a path leads. -/
def endOf : List Step → Nat × Nat → Nat × Nat
  | [], p => p
  | s :: ss, p => endOf ss (s.move p)

/-- The score of a path. -/
def pathScore (M : Nat → Nat → Bool) : List Step → Nat × Nat → Int
  | [], _ => 0
  | s :: ss, p => s.score M p + pathScore M ss (s.move p)

/-- The nodes a path visits after its start. -/
def visits : List Step → Nat × Nat → List (Nat × Nat)
  | [], _ => []
  | s :: ss, p => s.move p :: visits ss (s.move p)

end CollateX.Spec
