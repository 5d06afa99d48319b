import Verif.Model.TokenIndex
import Verif.Model.RangeSet
import Verif.Model.AStarAligner
import Verif.Model.EditGraph
/-
The match function of `Scorer` in `suffix_based_scorer.py`, with `Block`, `Occurrence` and `BlockWitness` of
`extended_suffix_array.py`.
-/

namespace CollateX

/-- extended_suffix_array.py 55–70, `Occurrence`: a range of token positions and the block it belongs to. A block
(extended_suffix_array.py 32–52) is its range set; `__eq__` compares the range sets, that is their elements. -/
structure Occ where
  range : Nat × Nat
  block : RSet
  deriving DecidableEq, Repr

/-- suffix_based_scorer.py 29–37, the attributes of a `Scorer`; the token index does not change. Entries `None` of
`global_tokens_to_occurrences`, which `match` creates (108–109), are left out: they read like absent ones. -/
structure ScorerSt where
  blocks : List RSet
  occurrences : Dict Token Occ

/-- suffix_based_scorer.py 181–252, `_get_non_overlapping_repeating_blocks`. Without potential blocks the queue is empty. Otherwise the
first round calls `intersection` (200) on what `item._as_range()` returns, a Python `range` (block.py 66–67), which has no such
method: AttributeError. The blocks in the queue can be compared (`__lt__`, block.py 25–26), so that `put` and `get` do not raise. -/
def scorerBlocks (ti : TokenIndex) : Py (List RSet) := do
  let potential ← splitLcp ti.LCP
  match potential with
  | [] => .ok []
  | _ :: _ => .error .attributeError

/-- suffix_based_scorer.py 165–172: the occurrences of the blocks in a witness; `a & b` of range sets is the set of common elements. -/
def occurrencesIn (blocks : List RSet) (r : Nat × Nat) : List Occ :=
  blocks.flatMap (fun b => (contiguousSlices ⟨b.elems.filter (fun x => r.1 ≤ x ∧ x < r.2), b.padding⟩).map (fun s => ⟨s, b⟩))

/-- suffix_based_scorer.py 156–176, `_get_block_witness`: the blocks, which are computed if there are none, and the sorted occurrences. -/
def blockWitness (ti : TokenIndex) (s : ScorerSt) (sigil : Str) : Py (ScorerSt × List Occ) := do
  let r ← ti.rangeOf sigil
  let blocks ← (if s.blocks = [] then scorerBlocks ti else .ok s.blocks : Py (List RSet))
  .ok ({ s with blocks := blocks }, sortByKey (fun o => (o.range.1 : Int)) (occurrencesIn blocks r))

/-- suffix_based_scorer.py 140–151, `_build_tokens_to_occurrences`; the last occurrence with the position counts. The code's keys are the
token objects; indexed tokens (`_sigil`, `_token_array_position`) are equal only if they are the same object. -/
def tokensToOccurrences (occs : List Occ) : Nat → List Token → Dict Token Occ → Dict Token Occ
  | _, [], d => d
  | i, t :: ts, d =>
    tokensToOccurrences occs (i + 1) ts
      ((occs.filter (fun o => o.range.1 ≤ i ∧ i < o.range.2)).foldl (fun d o => dset d t o) d)

/-- suffix_based_scorer.py 92–99, `prepare_witness`. -/
def ScorerSt.prepare (ti : TokenIndex) (s : ScorerSt) (w : Witness) : Py ScorerSt := do
  let p ← blockWitness ti s w.sigil
  let r ← ti.rangeOf w.sigil
  .ok { p.1 with occurrences := dupdate p.1.occurrences (tokensToOccurrences p.2 r.1 w.tokens []) }

/-- `prepare_witness` for several witnesses, as in experimental_astar_aligner.py 22–43. -/
def ScorerSt.prepareAll (ti : TokenIndex) : List Witness → ScorerSt → Py ScorerSt
  | [], s => .ok s
  | w :: ws, s => do
    let s' ← s.prepare ti w
    prepareAll ti ws s'

/-- suffix_based_scorer.py 105–124, `match`. -/
def ScorerSt.matchTokens (s : ScorerSt) (pf : Option PFilter) (a b : Token) : MatchKind :=
  match dget s.occurrences a, dget s.occurrences b with
  | some x, some y =>
    if x.block.elems = y.block.elems then
      match pf with
      | none => .full
      | some f => if f a.data b.data then .full else .no
    else .no
  | _, _ => .no

/-- suffix_based_scorer.py 126–136, `near_match`; the ratio is in millionths. Without the Levenshtein module line 130 raises
NameError, which is left out here. -/
def ScorerSt.nearMatch (s : ScorerSt) (pf : Option PFilter) (ratio : Str → Str → Nat) (a b : Token) : MatchKind :=
  if s.matchTokens pf a b = .full then .full
  else if ratio a.str b.str > 600000 then .near else .no

/-- suffix_based_scorer.py 29–37, a new `Scorer`. -/
def newScorer : ScorerSt := ⟨[], []⟩

end CollateX
