import Verif.Model.TokenIndex
/-
`ClusterShell/RangeSet.py`: the one-dimensional range set, its printed form and its parser.

The `autostep` folding of `_folded_slices` (off by default and never switched on by collatex) is in FoldedSlices.lean, the set operations
and pickling in RangeOps.lean.
-/

namespace CollateX

/-- RangeSet.py 66–121: a set of non-negative integers (up to order and repetition) and the display width `padding`.
Simplification: `RangeSet` accepts negative integers through its iterable constructor; they are left out. -/
structure RSet where
  elems : List Nat
  padding : Option Nat
  deriving DecidableEq, Repr

/-- Insertion into a strictly increasing list. -/
def insertNat (x : Nat) : List Nat → List Nat
  | [] => [x]
  | y :: ys => if x < y then x :: y :: ys else if y < x then y :: insertNat x ys else y :: ys

/-- RangeSet.py 222–224, `_sorted`: `sorted` of the underlying set. -/
def sortedNats : List Nat → List Nat
  | [] => []
  | x :: xs => insertNat x (sortedNats xs)

/-- RangeSet.py 296–304, the loop of `_contiguous_slices` once `k` and `j` are set. `i - j > 1` is written without
subtraction. -/
def contigLoop (k j : Nat) : List Nat → List (Nat × Nat)
  | [] => [(k, j + 1)]
  | i :: l => if j + 1 < i then (k, j + 1) :: contigLoop i i l else contigLoop k i l

/-- RangeSet.py 293–304, `_contiguous_slices`, as pairs (start, stop); the step is always 1. In the first round `k = j = i`. -/
def contiguousSlices (r : RSet) : List (Nat × Nat) :=
  match sortedNats r.elems with
  | [] => []
  | i :: l => contigLoop i i (i :: l)

/-- `"%0*d" % (pad, n)` -/
def padded (pad n : Nat) : Str := List.replicate (pad - (natStr n).length) '0' ++ natStr n

/-- RangeSet.py 275–283, one round of `_strslices` for a slice of step 1. -/
def strSlice (pad : Nat) (s : Nat × Nat) : Str :=
  if s.1 + 1 = s.2 then padded pad s.1 else padded pad s.1 ++ '-' :: padded pad (s.2 - 1)

/-- `','.join(l)` -/
def joinComma : List Str → Str
  | [] => []
  | [a] => a
  | a :: l => a ++ ',' :: joinComma l

/-- RangeSet.py 285–287, `__str__` with the default `autostep` (`slices()` is `_contiguous_slices()`, 413–414). -/
def rangeStr (r : RSet) : Str := joinComma ((contiguousSlices r).map (strSlice (r.padding.getD 0)))

/-- `s.split(c)`; without `c` in `s` this is `[s]`, as in RangeSet.py 126–129. -/
def splitChar (c : Char) : Str → List Str
  | [] => [[]]
  | x :: s => if x = c then [] :: splitChar c s else
      match splitChar c s with
      | [] => [[x]]
      | a :: l => (x :: a) :: l

/-- `s.split(c, 1)` when `c` occurs in `s`. -/
def splitFirst (c : Char) : Str → Option (Str × Str)
  | [] => none
  | x :: s => if x = c then some ([], s) else (splitFirst c s).map fun p => (x :: p.1, p.2)

/-- White space that `int()` strips. Simplification: ASCII only. -/
def isBlank (c : Char) : Bool := c.toNat == 32 || (9 ≤ c.toNat && c.toNat ≤ 13) || (28 ≤ c.toNat && c.toNat ≤ 31)

/-- The body of an integer literal for `int()`: digits, single underscores between digits. Simplification: ASCII digits. -/
def intBody (acc : Nat) (digit : Bool) : Str → Option Nat
  | [] => if digit then some acc else none
  | c :: s =>
    if c = '_' then (if digit then intBody acc false s else none)
    else if c.isDigit then intBody (10 * acc + (c.toNat - 48)) true s else none

/-- `int(s)` for a string; `none` is ValueError. -/
def pyInt (s : Str) : Option Int :=
  match ((s.dropWhile isBlank).reverse.dropWhile isBlank).reverse with
  | '-' :: r => (intBody 0 false r).map fun n => -(n : Int)
  | '+' :: r => (intBody 0 false r).map fun n => (n : Int)
  | r => (intBody 0 false r).map fun n => (n : Int)

/-- `s.lstrip("0")` -/
def lstrip0 (s : Str) : Str := s.dropWhile (· = '0')

/-- The integer value of the float `1e100`. -/
def float1e100 : Nat :=
  10000000000000000159028911097599180468360808563945281389781327557747838772170381060813469985856815104

/-- `range(start, stop, step)` -/
def pyRange (start stop step : Nat) : List Nat := (List.range ((stop - start + step - 1) / step)).map fun i => start + i * step

/-- RangeSet.py 457–470, `add_range`. -/
def RSet.addRange (r : RSet) (start stop step pad : Nat) : Py RSet :=
  if ¬ start < stop then .error .assertionError
  else if ¬ 0 < step then .error .assertionError
  else if ¬ stop - start < 1000000000 then .error .assertionError
  else .ok { elems := r.elems ++ pyRange start stop step
             padding := if 0 < pad ∧ r.padding = none then some pad else r.padding }

/-- RangeSet.py 152–171, the numbers of a subrange: start, stop and padding; `none` is ValueError. -/
def rangeNumbers (begin_ end_ : Str) : Option (Int × Int × Nat) := do
  let b ← pyInt begin_
  let (start, pad) ← if b ≠ 0 then do
      let begins := lstrip0 begin_
      let start ← pyInt begins
      pure (start, if begin_.length - begins.length > 0 then begin_.length else 0)
    else pure (0, if begin_.length > 1 then begin_.length else 0)
  let e ← pyInt end_
  let stop ← pyInt (if e ≠ 0 then lstrip0 end_ else end_)
  pure (start, stop, pad)

/-- RangeSet.py 131–178, one round of the loop of `_parse`. After the check of 174 `step` and `stop` are non-negative, and
`start` is because `begin` contains no `-` (144–150), so the conversion to natural numbers loses nothing. -/
def parseSubrange (r : RSet) (subrange : Str) : Py RSet :=
  let (baserange, stepStr) := match splitFirst '/' subrange with
    | none => (subrange, S "1")
    | some p => p
  match pyInt stepStr with
  | none => .error .rangeSetParseError
  | some step =>
    match splitFirst '-' baserange with
    | none =>
      if step ≠ 1 then .error .rangeSetParseError else go step baserange baserange
    | some (b, e) => go step b e
where
  go (step : Int) (b e : Str) : Py RSet :=
    match rangeNumbers b e with
    | none => .error .rangeSetParseError
    | some (start, stop, pad) =>
      if stop > float1e100 ∨ start > stop ∨ step < 1 then .error .rangeSetParseError
      else r.addRange start.toNat (stop.toNat + 1) step.toNat pad

/-- RangeSet.py 123–178, `_parse`, on a range set. -/
def parseInto (r : RSet) : List Str → Py RSet
  | [] => .ok r
  | s :: l => do
    let r ← parseSubrange r s
    parseInto r l

/-- RangeSet.py 103–121, `RangeSet(pattern)` for a string. -/
def parseRangeSet (pattern : Str) : Py RSet := parseInto { elems := [], padding := none } (splitChar ',' pattern)

end CollateX
