import Verif.Model.Basic
/-
Collating two texts: a short program on two lists of words, without token index, suffix array, graph, ranks or score objects.
-/

namespace CollateX.Spec
open CollateX

/-- Word `i` of the first text is word `j` of the second. -/
def sameAt (A B : List Str) (i j : Nat) : Bool :=
  match A[i]?, B[j]? with
  | some a, some b => decide (a = b)
  | _, _ => false

/-- The best score, and the pairs of words it links (the last one first), of the first `i + 1` words of the first text and the first
`j` words of the second, where `M` says which words are the same; `f` gives them for the first `i` words. A link scores a point, any other
step loses one. The last words can be put together (linked, if they are the same), or the last word of the first text is left alone, or the
last word of the second text is. If the last two words of the second text both are the last word of the first, the last one may be linked to
it, too. In case of a draw the earlier of the three ways is taken. -/
def alignRow (M : Nat → Nat → Bool) (i : Nat) (f : Nat → Int × List (Nat × Nat)) : Nat → Int × List (Nat × Nat)
  | 0 => (-((i : Int) + 1), [])
  | j + 1 =>
    let together := if M i j then ((f j).1 + 1, (i, j) :: (f j).2) else ((f j).1 - 1, (f j).2)
    let first := ((f (j + 1)).1 - 1, (f (j + 1)).2)
    let s := alignRow M i f j
    let second := if 0 < j && M i (j - 1) && M i j then (s.1 + 1, (i, j) :: s.2) else (s.1 - 1, s.2)
    let best := if first.1 > together.1 then first else together
    if second.1 > best.1 then second else best

/-- The best score, and the pairs of words it links (the last one first), of the first `i` words of the first text and the first `j` words of
the second. -/
def aligned (M : Nat → Nat → Bool) : Nat → Nat → Int × List (Nat × Nat)
  | 0 => fun j => (-(j : Int), [])
  | i + 1 => alignRow M i (aligned M i)

/-- Of several pairs with the same key, the first one. -/
def firstOf (key : Nat × Nat → Nat) : List (Nat × Nat) → List (Nat × Nat)
  | [] => []
  | p :: l => p :: (firstOf key l).filter (fun q => key q ≠ key p)

/-- The links between two texts: a word of the first text that is linked to several words is linked to the last of them. -/
def linked (A B : List Str) : List (Nat × Nat) := (firstOf Prod.fst (aligned (sameAt A B) A.length B.length).2).reverse

/-- A column of two rows and whether it is marked variant. -/
abbrev MarkedPair := Bool × Option Str × Option Str

/-- Words below each other, beginning on the left. -/
def beside (A B : List Str) : List MarkedPair := (List.range (max A.length B.length)).map (fun d => (true, A[d]?, B[d]?))

/-- Two texts from words `a` and `b` on, in columns: linked words share a column that is not variant, the words between two links are put
below each other. -/
def columnsFrom (A B : List Str) : List (Nat × Nat) → Nat → Nat → List MarkedPair
  | [], a, b => beside (A.drop a) (B.drop b)
  | (i, j) :: l, a, b =>
    beside ((A.take i).drop a) ((B.take j).drop b) ++ (false, A[i]?, B[j]?) :: columnsFrom A B l (i + 1) (j + 1)

/-- The collation of two texts. -/
def collation (A B : List Str) : List MarkedPair := columnsFrom A B (linked A B) 0 0

end CollateX.Spec
