import Verif.Model.Witness
import Verif.Model.LinSuffArr
/-
`tokenindex.py` and `block.py`.
-/

namespace CollateX

/-- Decimal digits of a natural number, `str(idx)`; the first argument is fuel. -/
def natDigits : Nat → Nat → Str
  | 0, _ => []
  | f + 1, n => if n < 10 then [Char.ofNat (48 + n)] else natDigits f (n / 10) ++ [Char.ofNat (48 + n % 10)]

/-- `str(n)` for a natural number. -/
def natStr (n : Nat) : Str := natDigits (n + 1) n

/-- tokenindex.py 64: `'$' + str(idx)`. -/
def markerStr (idx : Nat) : Str := '$' :: natStr idx

/-- tokenindex.py 64: `Token({"n": '$' + str(idx), '_sigil': sigil})`. -/
def markerToken (idx : Nat) (sigil : Str) : Token :=
  ⟨markerStr idx, [(.n, .str (markerStr idx)), (.sigil, .str sigil)]⟩

/-- tokenindex.py 59–60: set the two bookkeeping keys. -/
def indexToken (sigil : Str) (pos : Nat) (t : Token) : Token :=
  { t with data := dset (dset t.data .sigil (.str sigil)) .pos (.nat pos) }

/-- tokenindex.py 58–61: the loop over the tokens of a witness. -/
def indexTokens (sigil : Str) : Nat → List Token → List Token
  | _, [] => []
  | pos, t :: ts => indexToken sigil pos t :: indexTokens sigil (pos + 1) ts

/-- A witness range: `RangeSet` with the one range `start..stop-1` (tokenindex.py 51–55). -/
abbrev Range := Nat × Nat

/-- ClusterShell/RangeSet.py 457–470, `add_range(start, stop)` on an empty set: asserts `start < stop` and
`stop - start < 1e9`. -/
def addRange (start stop : Nat) : Py Range :=
  if start < stop ∧ stop - start < 1000000000 then .ok (start, stop) else .error .assertionError

/-- State of `_prepare_token_array`. The `counter` attribute and `token_array_position` are always equal
(both start at 0 and grow by the number of tokens plus one). `ws` are the witnesses with their mutated tokens. -/
structure PrepSt where
  counter : Nat
  ranges : Dict Str Range
  arr : List Token
  ws : List Witness
  deriving DecidableEq, Repr

/-- tokenindex.py 49–65, the loop of `_prepare_token_array`; `idx` is the witness number. -/
def prepLoop : Nat → List Witness → PrepSt → Py PrepSt
  | _, [], s => .ok s
  | idx, w :: ws, s => do
    let r ← addRange s.counter (s.counter + w.tokens.length)
    let toks := indexTokens w.sigil s.counter w.tokens
    prepLoop (idx + 1) ws
      { counter := s.counter + w.tokens.length + 1
        ranges := dset s.ranges w.sigil r
        arr := s.arr ++ toks ++ [markerToken idx w.sigil]
        ws := s.ws ++ [{ w with tokens := toks }] }

/-- tokenindex.py 44–66, `_prepare_token_array`; `pop` on the empty list raises IndexError. -/
def prepare (ws : List Witness) : Py PrepSt := do
  let s ← prepLoop 0 ws { counter := 0, ranges := [], arr := [], ws := [] }
  if s.arr = [] then .error .indexError else .ok { s with arr := s.arr.dropLast }

/-- `Block`, block.py 1–17: an interval `start..stop` (inclusive) of the suffix array, with its length in tokens. -/
structure Block where
  start : Nat
  stop : Nat
  length : Nat
  deriving DecidableEq, Repr

/-- tokenindex.py 79–81: close the open intervals longer than the current LCP value. The stack's top is the head. -/
def closeLoop (idx v : Nat) : List (Nat × Nat) → List Block → List (Nat × Nat) × List Block
  | [], closed => ([], closed)
  | (st, len) :: opn, closed =>
    if len > v then closeLoop idx v opn (closed ++ [⟨st, idx - 1, len⟩]) else ((st, len) :: opn, closed)

/-- tokenindex.py 72–89, the loop over the LCP array. `idx - 1` is only evaluated for `idx ≥ 1`, because entry 0 is 0.
Line 85 reads the last closed interval (IndexError if there is none). -/
def splitLoop : Nat → List Nat → Nat → List (Nat × Nat) → List Block → Py (List (Nat × Nat) × List Block)
  | _, [], _, opn, closed => .ok (opn, closed)
  | idx, v :: vs, prev, opn, closed =>
    if v > prev then splitLoop (idx + 1) vs v ((idx - 1, v) :: opn) closed
    else if v < prev then
      let r := closeLoop idx v opn closed
      if v > 0 then
        match r.2.getLast? with
        | some b => splitLoop (idx + 1) vs v ((b.start, v) :: r.1) r.2
        | none => .error .indexError
      else splitLoop (idx + 1) vs v r.1 r.2
    else splitLoop (idx + 1) vs prev opn closed

/-- tokenindex.py 68–98, `split_lcp_array_into_intervals`. The final loop goes through the stack from the bottom. -/
def splitLcp (lcp : List Nat) : Py (List Block) := do
  let r ← splitLoop 0 lcp 0 [] []
  .ok (r.2 ++ (r.1.reverse.filter (fun p => p.2 > 0)).map (fun p => ⟨p.1, lcp.length - 1, p.2⟩))

/-- block.py 39–46, `get_all_instances`: the start tokens of the occurrences. IndexError outside the suffix array. -/
def instancesFrom (SA : List Nat) : Nat → Nat → Py (List Nat)
  | _, 0 => .ok []
  | i, k + 1 => do
    let p ← lgetE SA i
    let ps ← instancesFrom SA (i + 1) k
    .ok (p :: ps)

/-- block.py 39–46 -/
def Block.instances (SA : List Nat) (b : Block) : Py (List Nat) :=
  instancesFrom SA b.start (b.stop + 1 - b.start)

/-- An `Instance`, block.py 70–74. -/
structure Inst where
  start : Nat
  block : Block
  deriving DecidableEq, Repr

/-- block.py 95–99, `get_witness_sigil` (for a non-empty token array). -/
def instSigil (arr : List Token) (p : Nat) : Py Str := do
  let t ← lgetE arr p
  match dget t.data .sigil with
  | some (.str s) => .ok s
  | _ => .error .keyError

/-- tokenindex.py 137–141, inner loop. -/
def mapInstances (arr : List Token) (b : Block) : List Nat → Dict Str (List Inst) → Py (Dict Str (List Inst))
  | [], d => .ok d
  | p :: ps, d => do
    let w ← instSigil arr p
    mapInstances arr b ps (setdefaultAppend d w ⟨p, b⟩)

/-- tokenindex.py 133–141, `construct_witness_to_block_instances_map`. -/
def mapBlocks (arr : List Token) (SA : List Nat) : List Block → Dict Str (List Inst) → Py (Dict Str (List Inst))
  | [], d => .ok d
  | b :: bs, d => do
    let ps ← b.instances SA
    let d' ← mapInstances arr b ps d
    mapBlocks arr SA bs d'

/-- `TokenIndex`, after `prepare`. -/
structure TokenIndex where
  ws : List Witness
  ranges : Dict Str Range
  arr : List Token
  SA : List Nat
  LCP : List Nat
  blocks : List Block
  instances : Dict Str (List Inst)
  deriving DecidableEq, Repr

/-- tokenindex.py 30–37, `prepare`. -/
def mkTokenIndex (ws : List Witness) : Py TokenIndex := do
  let p ← prepare ws
  let sa := mkSuffixArray (p.arr.map Token.str)
  let blocks ← splitLcp sa.LCP
  let insts ← mapBlocks p.arr sa.SA blocks []
  .ok { ws := p.ws, ranges := p.ranges, arr := p.arr, SA := sa.SA, LCP := sa.LCP, blocks := blocks, instances := insts }

/-- tokenindex.py 100–103, `get_range_for_witness` (raises a bare Exception). -/
def TokenIndex.rangeOf (ti : TokenIndex) (sigil : Str) : Py Range :=
  match dget ti.ranges sigil with
  | some r => .ok r
  | none => .error .exception

/-- tokenindex.py 130–131, `block_instances_for_witness`. -/
def TokenIndex.instancesOf (ti : TokenIndex) (sigil : Str) : List Inst := (dget ti.instances sigil).getD []

end CollateX
