import Verif.Model.RangeSet
/-
`ClusterShell/RangeSet.py`: the slices of a range set when `autostep` is set, and the form that is printed then.
-/

namespace CollateX

/-- A Python `slice(start, stop, step)`. -/
structure Slice where
  start : Nat
  stop : Nat
  step : Nat
  deriving DecidableEq, Repr

/-- The local variables of `_folded_slices` between two rounds: the pending range `prng` (its step is always 1), `istart`, `i`, `k`
and `m`. -/
structure Folding where
  prng : Option (Nat × Nat)
  istart : Nat
  i : Nat
  k : Nat
  m : Nat
  deriving DecidableEq, Repr

/-- `for j in range(start, stop, step): yield slice(j, j + 1, 1)` -/
def singles (start stop step : Nat) : List Slice := (pyRange start stop step).map (fun j => ⟨j, j + 1, 1⟩)

/-- `yield slice(*prng)` -/
def pendingSlice (p : Nat × Nat) : Slice := ⟨p.1, p.2, 1⟩

/-- RangeSet.py 319–325, the first round (`istart` is None), with lines 384–385. -/
def firstRound (start stop : Nat) : Folding :=
  if start + 1 = stop then ⟨none, start, start, start, 0⟩ else ⟨some (start, stop), stop - 1, stop - 1, stop - 1, 0⟩

/-- RangeSet.py 347–353: the pending range is yielded, one shorter if its last element begins a range with a step; otherwise that
element is not repeated. The second component is the new `istart`. -/
def yieldPending (st : Folding) (stepped : Bool) : List Slice × Nat :=
  match st.prng with
  | none => ([], st.istart)
  | some p => if stepped then ([pendingSlice (p.1, p.2 - 1)], st.istart) else ([pendingSlice p], st.istart + st.m)

/-- RangeSet.py 326–385, one later round, for the slice `start..stop-1`. `k - m + 1` and `i - m + 1` are written `k + 1 - m` and
`i + 1 - m`: the ranges are empty when the difference is negative. -/
def foldRound (auto : Int) (st : Folding) (start stop : Nat) : List Slice × Folding :=
  if st.m = 0 then
    if start + 1 ≠ stop then
      -- 327–335
      ([match st.prng with
        | some p => pendingSlice p
        | none => ⟨st.istart, st.istart + 1, 1⟩],
       { st with prng := some (start, stop), istart := stop - 1, k := stop - 1 })
    else
      -- 336, 384–385
      ([], { st with i := start, m := start - st.k, k := start })
  else if st.m = start - st.k ∧ start + 1 = stop then
    -- 339, 384–385: the step goes on
    ([], { st with i := start, m := start - st.k, k := start })
  else
    let j := if st.m = start - st.k then start else st.k
    let stepped : Bool := decide (auto * (st.m : Int) ≤ (j : Int) - (st.istart : Int))
    let y := yieldPending st stepped
    if st.m ≠ start - st.k then
      -- 354–370
      let out := if stepped then [⟨y.2, st.k + 1, st.m⟩]
        else singles y.2 (st.k + 1 - st.m) st.m ++ (if start + 1 ≠ stop then [⟨st.k, st.k + 1, 1⟩] else [])
      if start + 1 = stop then
        if stepped then (y.1 ++ out, ⟨none, start, start, start, 0⟩)
        else (y.1 ++ out, ⟨none, st.k, start, start, start - st.k⟩)
      else (y.1 ++ out, ⟨some (start, stop), stop - 1, stop - 1, stop - 1, 0⟩)
    else
      -- 371–383: the slice is not a single element
      let out := if stepped then [⟨y.2, start + 1, st.m⟩] else singles y.2 (start + 1 - st.m) st.m
      let i := if stepped then start + 1 else start
      (y.1 ++ out, ⟨if i + 1 < stop then some (i, stop) else none, stop - 1, stop - 1, stop - 1, 0⟩)

/-- RangeSet.py 386–406, after the loop. -/
def foldEnd (auto : Int) (st : Folding) : List Slice :=
  if st.m = 0 then
    [match st.prng with
      | some p => pendingSlice p
      | none => ⟨st.istart, st.istart + 1, 1⟩]
  else
    let stepped : Bool := decide (auto * (st.m : Int) ≤ (st.k : Int) - (st.istart : Int))
    let y := yieldPending st stepped
    y.1 ++ (if stepped then [⟨y.2, st.i + 1, st.m⟩] else singles y.2 (st.i + 1) st.m)

/-- The loop from the second slice on. -/
def foldLoop (auto : Int) (st : Folding) : List (Nat × Nat) → List Slice
  | [] => foldEnd auto st
  | s :: l =>
    let r := foldRound auto st s.1 s.2
    r.1 ++ foldLoop auto r.2 l

/-- RangeSet.py 306–406, `_folded_slices`; `auto` is the attribute `_autostep`, one less than the value that was set (line 218). -/
def foldedSlices (auto : Int) (r : RSet) : List Slice :=
  match contiguousSlices r with
  | [] => []
  | s :: l => foldLoop auto (firstRound s.1 s.2) l

/-- RangeSet.py 408–416, `slices`; without a value, `_autostep` is the float `1E100` (line 215). -/
def slices (autostep : Option Int) (r : RSet) : List Slice :=
  match autostep with
  | none => (contiguousSlices r).map pendingSlice
  | some v => if v - 1 ≥ (float1e100 : Int) then (contiguousSlices r).map pendingSlice else foldedSlices (v - 1) r

/-- RangeSet.py 271–283, one round of `_strslices`. -/
def strSlice3 (pad : Nat) (s : Slice) : Str :=
  if s.start + 1 = s.stop then padded pad s.start
  else if s.step = 1 then padded pad s.start ++ '-' :: padded pad (s.stop - 1)
  else padded pad s.start ++ '-' :: padded pad (s.stop - 1) ++ '/' :: natStr s.step

/-- RangeSet.py 285–287, `__str__`, for a range set with the given `autostep`. -/
def rangeStrStep (autostep : Option Int) (r : RSet) : Str := joinComma ((slices autostep r).map (strSlice3 (r.padding.getD 0)))

end CollateX
