import Verif.Spec.Progressive
/-
Near matching of two texts: a short program on lists of words and columns, without graph, ranking or near edges.
-/

namespace CollateX.Spec
open CollateX

namespace Work

/-- What is compared for a word. -/
def compared (w : Work) (n : Nat) : Str :=
  match w.words[n]? with
  | some (c :: s) => c :: s
  | _ => S "no label"

/-- Of `x` and further columns the one with the highest score; of several such columns the first. -/
def firstBest (score : Nat → Nat) : Nat → List Nat → Nat
  | x, [] => x
  | x, y :: l => let z := firstBest score y l; if score x < score z then z else x

/-- How similar node `n` is to what the other text has in column `x`. -/
def similarity (w : Work) (ratio : Str → Str → Nat) (other : List Nat) (n x : Nat) : Nat :=
  match w.nodeAt other x with
  | some k => ratio (w.compared n) (w.compared k)
  | none => 0

/-- The columns of the nodes of a text after near matching, found from its end. Between its own column and that of the next node of the text, a
node that is not shared with the other text takes the first of the columns where it is most similar to what the other text has. -/
def moved (w : Work) (ratio : Str → Str → Nat) (other : List Nat) : List Nat → List Nat
  | [] => []
  | n :: r =>
    let rest := w.moved ratio other r
    let c := w.column n
    let next := rest.headD (w.width + 1)
    (if n ∈ other then c else firstBest (w.similarity ratio other n) c (List.range' (c + 1) (next - (c + 1)))) :: rest

/-- The row of a text after near matching, with the marks of the columns, which stay as they were. -/
def nearRow (w : Work) (ratio : Str → Str → Nat) (r other : List Nat) : List (Bool × Option (List Str)) :=
  (List.range w.width).map (fun x => (w.variantAt (x + 1),
    (((r.zip (w.moved ratio other r)).find? (fun p => p.2 = x + 1)).bind (fun p => w.words[p.1]?)).map (fun s => [s])))

/-- The table of two texts after near matching. -/
def nearShown (w : Work) (ratio : Str → Str → Nat) : List (List (Bool × Option (List Str))) :=
  match w.rows with
  | [a, b] => [w.nearRow ratio a b, w.nearRow ratio b a]
  | _ => []

end Work

end CollateX.Spec
