import Verif.Model.TokenIndex
/-
The counting methods of `Block`, block.py. A block made by the token index is closed; the methods are modelled with the tests for
blocks that are not.
-/

namespace CollateX

/-- block.py 33–37, `get_frequency`. -/
def Block.frequency (b : Block) : Py Nat :=
  if b.stop = 0 then .error .exception else .ok (b.stop + 1 - b.start)

/-- block.py 62–63: the set of sigla, as a list without repetitions in order of insertion (only its size is used). -/
def sigilSet (arr : List Token) : List Nat → List Str → Py (List Str)
  | [], acc => .ok acc
  | p :: ps, acc => do
    let s ← instSigil arr p
    sigilSet arr ps (if s ∈ acc then acc else acc ++ [s])

/-- block.py 16–17, 28–31, 59–64, `get_depth` (lazily computed; 0 for a block that is not closed). -/
def Block.depth (arr : List Token) (SA : List Nat) (b : Block) : Py Nat :=
  if b.stop = 0 then .ok 0
  else do
    let ps ← b.instances SA
    let ss ← sigilSet arr ps []
    .ok ss.length

/-- block.py 49–57, `get_all_occurrences_as_ranges`: pairs (first position, position after the last). Line 52 runs over
`range(self.start, self.end)`. -/
def Block.occurrenceRanges (SA : List Nat) (b : Block) : Py (List (Nat × Nat)) := do
  let ps ← instancesFrom SA b.start (b.stop - b.start)
  .ok (ps.map (fun p => (p, p + b.length)))

/-- block.py 91–93, `get_tokens` of an instance; the code wraps this list in a list of length one. -/
def Inst.tokens (arr : List Token) (i : Inst) : List Token := (arr.drop i.start).take i.block.length

end CollateX
