import Verif.Model.LinSuffArr
/-
Search in the suffix array: `linsuffarr.py` 776–906. The text and the pattern are given as lists of tokens (the result of
`tokenize`); the optional `features` argument is left out.
-/

namespace CollateX

/-- linsuffarr.py 790–795: the numbers of the tokens of the pattern; `none` if one is not in the vocabulary (KeyError). -/
def patIds (voc : List Str) : List Str → Option (List Nat)
  | [] => some []
  | x :: xs =>
    if x ∈ voc then
      match patIds voc xs with
      | some l => some (tokId voc x :: l)
      | none => none
    else none

/-- linsuffarr.py 801–818, the loop of `_findOne` (`<` on arrays is lexicographic). The first argument is fuel. -/
def findLoop (sa : SuffixArray) (pat : List Nat) : Nat → Nat → Nat → Option Nat
  | 0, _, _ => none
  | fuel + 1, lower, upper =>
    if upper - lower > 0 then
      let middle := (lower + upper) / 2
      let sub := (sa.string.drop (rd sa.SA middle)).take pat.length
      if pat < sub then findLoop sa pat fuel lower middle
      else if sub < pat then findLoop sa pat fuel (middle + 1) upper
      else some middle
    else none

/-- linsuffarr.py 776–822, `_findOne`, for the numbered pattern; `none` for `False`. -/
def findOne (sa : SuffixArray) (pat : List Nat) : Option Nat := findLoop sa pat (sa.SA.length + 1) 0 sa.SA.length

/-- linsuffarr.py 880–881: go down while the LCP is long enough. -/
def goDown (lcp : List Nat) (m : Nat) : Nat → Nat
  | 0 => 0
  | l + 1 => if rd lcp (l + 1) ≥ m then goDown lcp m l else l + 1

/-- linsuffarr.py 883–884: go up while the LCP is long enough; the first argument is `length - upper`. -/
def goUp (lcp : List Nat) (m : Nat) : Nat → Nat → Nat
  | 0, u => u
  | k + 1, u => if rd lcp u ≥ m then goUp lcp m k (u + 1) else u

/-- linsuffarr.py 824–892, `find`. -/
def find (sa : SuffixArray) (pattern : List Str) : List Nat :=
  match patIds sa.voc pattern with
  | none => []
  | some pat =>
    match findOne sa pat with
    | none => []
    | some middle =>
      let lower := goDown sa.LCP pat.length middle
      let upper := goUp sa.LCP pat.length (sa.SA.length - (middle + 1)) (middle + 1)
      (sa.SA.take upper).drop lower

end CollateX
