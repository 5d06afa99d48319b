import Verif.Model.FoldedSlices
/-
`ClusterShell/RangeSet.py`: the set operations, indexing, splitting and pickling of range sets.

The operands are range sets (the code also takes other sets, strings and iterables in some places). Python's own set operations are lists
here, up to order and repetition. `py3` says whether the interpreter is Python 3 (setup.py 34–38 lists 2.7 and 3).
-/

namespace CollateX

/-- RangeSet.py 66–121: a range set with all its attributes. `autostep` is the value that was set, `none` for None; the attribute
`_autostep` is one less, or 1E100 (209–218). -/
structure RObj where
  elems : List Nat
  padding : Option Nat
  autostep : Option Int
  deriving DecidableEq, Repr

/-- The elements and the padding. -/
def RObj.rset (r : RObj) : RSet := ⟨r.elems, r.padding⟩

/-- RangeSet.py 103–118, `RangeSet(autostep=autostep)`. -/
def RObj.empty (autostep : Option Int) : RObj := ⟨[], none, autostep⟩

/-- RangeSet.py 103–118, `RangeSet(r, autostep=autostep)`: line 118 overwrites what line 113 has set. -/
def RObj.ofRange (r : RObj) (autostep : Option Int) : RObj := ⟨r.elems, r.padding, autostep⟩

/-- RangeSet.py 202–207, `get_autostep`. -/
def RObj.getAutostep (r : RObj) : Option Int :=
  match r.autostep with
  | none => none
  | some v => if v - 1 ≥ (float1e100 : Int) then none else some (v - 1 + 1)

/-- `len(r)`, inherited from `set`. -/
def RObj.len (r : RObj) : Nat := (sortedNats r.elems).length

/-- RangeSet.py 688–695, `update`. -/
def RObj.update (r s : RObj) : RObj :=
  { r with elems := r.elems ++ s.elems, padding := if r.padding = none ∧ s.padding ≠ none then s.padding else r.padding }

/-- RangeSet.py 697–704, `updaten`. -/
def RObj.updaten (r : RObj) : List RObj → RObj
  | [] => r
  | s :: l => (r.update s).updaten l

/-- RangeSet.py 180–186, `fromlist`. -/
def RObj.fromList (l : List RObj) (autostep : Option Int) : RObj := (RObj.empty autostep).updaten l

/-- RangeSet.py 472–478, `copy`. -/
def RObj.copy (r : RObj) : RObj := ({ RObj.empty none with autostep := r.autostep, padding := r.padding } : RObj).update r

/-- RangeSet.py 639–643, `__ior__`, which is `set.__ior__`. -/
def RObj.ior (r s : RObj) : RObj := { r with elems := r.elems ++ s.elems }

/-- RangeSet.py 649–657, `__iand__` and `intersection_update`. -/
def RObj.interUpdate (r s : RObj) : RObj := { r with elems := r.elems.filter (· ∈ s.elems) }

/-- RangeSet.py 671–675, `__isub__`, and 684, `difference_update`. -/
def RObj.diffUpdate (r s : RObj) : RObj := { r with elems := r.elems.filter (· ∉ s.elems) }

/-- RangeSet.py 659–669, `__ixor__` and `symmetric_difference_update`. -/
def RObj.symmUpdate (r s : RObj) : RObj :=
  { r with elems := r.elems.filter (· ∉ s.elems) ++ s.elems.filter (· ∉ r.elems) }

/-- RangeSet.py 504–510, `_wrap_set_op`. Under Python 3 the built-in operation returns a `set` and not a `RangeSet` (see the comment in
542–545); a `set` has no attributes, so that line 508 raises. -/
def RObj.wrapSetOp (py3 : Bool) (r : RObj) (result : List Nat) : Py RObj :=
  if py3 then .error .attributeError else .ok ⟨result, r.padding, r.autostep⟩

/-- RangeSet.py 512–526, `__or__` and `union`. -/
def RObj.union (py3 : Bool) (r s : RObj) : Py RObj := r.wrapSetOp py3 (r.elems ++ s.elems)

/-- RangeSet.py 528–548, `__and__` and `intersection`. -/
def RObj.inter (r s : RObj) : RObj := r.copy.interUpdate s

/-- RangeSet.py 550–564, `__xor__` and `symmetric_difference`. -/
def RObj.symm (py3 : Bool) (r s : RObj) : Py RObj :=
  r.wrapSetOp py3 (r.elems.filter (· ∉ s.elems) ++ s.elems.filter (· ∉ r.elems))

/-- RangeSet.py 566–586, `__sub__` and `difference`. -/
def RObj.diff (r s : RObj) : RObj := r.copy.diffUpdate s

/-- RangeSet.py 604–607 and 615, `issubset`, which is `__le__`; `issuperset` and `__ge__` (609–612, 616) have the operands exchanged. -/
def RObj.subset (r s : RObj) : Bool := r.elems.all (· ∈ s.elems)

/-- RangeSet.py 482–493, `__eq__`. -/
def RObj.eq (r s : RObj) : Bool := r.len == s.len && r.subset s

/-- RangeSet.py 618–620, `__lt__`; `__gt__` (622–624) has the operands exchanged. -/
def RObj.lt (r s : RObj) : Bool := decide (r.len < s.len) && r.subset s

/-- RangeSet.py 590–600, `__contains__` for a number. -/
def RObj.containsNat (r : RObj) (x : Nat) : Bool := decide (x ∈ r.elems)

/-- RangeSet.py 590–600, `__contains__` for a range set. -/
def RObj.containsSet (r s : RObj) : Bool := s.subset r

/-- RangeSet.py 677–684, `difference_update` with `strict`. -/
def RObj.diffStrict (r s : RObj) : Py RObj :=
  if r.containsSet s then .ok (r.diffUpdate s) else .error .keyError

/-- RangeSet.py 709–712, `clear`. -/
def RObj.clear (r : RObj) : RObj := { r with elems := [], padding := none }

/-- RangeSet.py 716–722, `add` for a number. -/
def RObj.add (r : RObj) (x pad : Nat) : RObj :=
  { r with elems := r.elems ++ [x], padding := if 0 < pad ∧ r.padding = none then some pad else r.padding }

/-- RangeSet.py 724–730, `remove` for a number. -/
def RObj.remove (r : RObj) (x : Nat) : Py RObj :=
  if x ∈ r.elems then .ok { r with elems := r.elems.filter (· ≠ x) } else .error .keyError

/-- RangeSet.py 732–741, `discard` for a number. -/
def RObj.discard (r : RObj) (x : Nat) : RObj := { r with elems := r.elems.filter (· ≠ x) }

/-- RangeSet.py 418–429, `__getitem__` for a number; a negative one counts from the end. -/
def RObj.getItem (r : RObj) (i : Int) : Py Nat :=
  let l := sortedNats r.elems
  if 0 ≤ i then lgetE l i.toNat
  else if -i ≤ l.length then lgetE l (l.length + i).toNat
  else .error .indexError

/-- RangeSet.py 418–427, `r[start:stop]` for non-negative bounds; `update` (425) is given a list, so that the padding stays. -/
def RObj.getSlice (r : RObj) (start stop : Nat) : RObj :=
  ⟨((sortedNats r.elems).take stop).drop start, r.padding, r.autostep⟩

/-- RangeSet.py 451–455, the loop of `split`, from round `i` on, with `n` rounds to go. -/
def RObj.splitLoop (r : RObj) (size left : Nat) : Nat → Nat → Nat → List RObj
  | 0, _, _ => []
  | n + 1, i, begin_ =>
    let length := size + if i < left then 1 else 0
    r.getSlice begin_ (begin_ + length) :: r.splitLoop size left n (i + 1) (begin_ + length)

/-- RangeSet.py 433–455, `list(r.split(nbr))`. Under Python 3 `slice_size` (448) is a float, and a float as the bound of a slice of a
list is a TypeError. -/
def RObj.split (py3 : Bool) (r : RObj) (nbr : Nat) : Py (List RObj) :=
  if ¬ 0 < nbr then .error .assertionError
  else if py3 then (if min nbr r.len = 0 then .ok [] else .error .typeError)
  else .ok (r.splitLoop (r.len / nbr) (r.len % nbr) (min nbr r.len) 0 0)

/-- RangeSet.py 188–200, `fromone` for a slice of step 1: `add` raises TypeError (a slice is no number), which is caught. -/
def RObj.fromSlice (start stop pad : Nat) : Py RObj :=
  if stop = 0 then .error .valueError else do
    let r ← (⟨[], none⟩ : RSet).addRange start stop 1 pad
    .ok ⟨r.elems, r.padding, none⟩

/-- RangeSet.py 236–240, `list(r.contiguous())`. -/
def RObj.contiguous (r : RObj) : Py (List RObj) :=
  go (contiguousSlices r.rset)
where
  go : List (Nat × Nat) → Py (List RObj)
    | [] => .ok []
    | s :: l => do
      let a ← RObj.fromSlice s.1 s.2 (r.padding.getD 0)
      let as ← go l
      .ok (a :: as)

/-- RangeSet.py 230–234, `list(r.striter())`. -/
def RObj.striter (r : RObj) : List Str := (sortedNats r.elems).map (padded (r.padding.getD 0))

/-- RangeSet.py 242–247, `__reduce__`: the printed form, the padding and `autostep`. -/
def RObj.reduce (r : RObj) : Str × Option Nat × Option Int := (rangeStrStep r.autostep r.rset, r.padding, r.autostep)

/-- What `pickle.loads` and `copy.deepcopy` do with it: the constructor is called with the printed form, then `__setstate__` (249–251)
sets the attributes; the version is the current one. -/
def unreduce (p : Str × Option Nat × Option Int) : Py RObj := do
  let r ← parseRangeSet p.1
  .ok ⟨r.elems, p.2.1, p.2.2⟩

end CollateX
