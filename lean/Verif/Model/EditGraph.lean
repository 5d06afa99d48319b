import Verif.Model.Graph
import Verif.Model.TokenIndex
/-
The aligner: `edit_graph_aligner.py` 31–361.
-/

namespace CollateX

/-- A user's `properties_filter`: compares two token records. -/
abbrev PFilter := TokenData → TokenData → Bool

/-- `MatchCube.matches`, edit_graph_aligner.py 56: from (row, rank) to (vertex, token). Rows and ranks are integers: the
code computes both by subtraction. -/
abbrev Cube := Dict (Int × Int) (VId × Token)

/-- edit_graph_aligner.py 94–99, `filtered_token_data`: `del` raises KeyError for an absent key. -/
def filteredData (t : Token) : Py TokenData :=
  if dmem t.data .sigil && dmem t.data .pos then .ok (ddel (ddel t.data .sigil) .pos) else .error .keyError

/-- edit_graph_aligner.py 83–88: does the filter (if any) accept the pair? Line 84 takes the *first* token of the
graph's occurrence, whatever the offset. -/
def filterMatch (pf : Option PFilter) (arr : List Token) (graphStart : Nat) (t : Token) : Py Bool :=
  match pf with
  | none => .ok true
  | some f => do
    let other ← lgetE arr graphStart
    let d1 ← filteredData t
    let d2 ← filteredData other
    .ok (f d1 d2)

/-- edit_graph_aligner.py 71–91, the loop over the offsets `i` of a block; `k` offsets are left. -/
def cubeOffsets (pf : Option PFilter) (arr : List Token) (va : List (Option VId)) (rk : Ranking)
    (wStart : Nat) (graphStart instStart : Nat) : Nat → Nat → Cube → Py Cube
  | 0, _, m => .ok m
  | k + 1, i, m => do
    let ov ← lgetE va (graphStart + i)
    match ov with
    | none => .error .exception
    | some v =>
      let r ← dgetE rk.byVertex v
      let t ← lgetE arr (instStart + i)
      let ok ← filterMatch pf arr graphStart t
      let row : Int := ((instStart + i : Nat) : Int) - (wStart : Int)
      let m' := if ok then dset m (row, (r : Int) - 1) (v, t) else m
      cubeOffsets pf arr va rk wStart graphStart instStart k (i + 1) m'

/-- edit_graph_aligner.py 69–91, the loop over the occurrences in the graph. -/
def cubeGraphInsts (pf : Option PFilter) (arr : List Token) (va : List (Option VId)) (rk : Ranking)
    (wStart instStart len : Nat) : List Nat → Cube → Py Cube
  | [], m => .ok m
  | gs :: rest, m => do
    let m' ← cubeOffsets pf arr va rk wStart gs instStart len 0 m
    cubeGraphInsts pf arr va rk wStart instStart len rest m'

/-- edit_graph_aligner.py 63–91, the loop over the block instances of the witness. -/
def cubeInsts (pf : Option PFilter) (ti : TokenIndex) (va : List (Option VId)) (rk : Ranking) (wStart : Nat) :
    List Inst → Cube → Py Cube
  | [], m => .ok m
  | inst :: rest, m => do
    let all ← inst.block.instances ti.SA
    let m' ← cubeGraphInsts pf ti.arr va rk wStart inst.start inst.block.length
      (all.filter (fun p => p < wStart)) m
    cubeInsts pf ti va rk wStart rest m'

/-- edit_graph_aligner.py 55–91, `MatchCube.__init__`. -/
def mkCube (pf : Option PFilter) (ti : TokenIndex) (w : Witness) (va : List (Option VId)) (rk : Ranking) :
    Py Cube := do
  let r ← ti.rangeOf w.sigil
  cubeInsts pf ti va rk r.1 (ti.instancesOf w.sigil) []

/-- edit_graph_aligner.py 105–107, `has_match`. -/
def Cube.has (m : Cube) (y x : Int) : Bool := dmem m (y, x)

/-- `ScoreType`, edit_graph_aligner.py 113–118. -/
inductive ScoreType where
  | match | mismatch | addition | deletion | empty
  deriving DecidableEq, Repr

/-- `Score`, edit_graph_aligner.py 121–129: type, coordinates, coordinates of the parent, score. -/
structure Score where
  type : ScoreType
  x : Nat
  y : Nat
  px : Nat
  py : Nat
  g : Int
  deriving DecidableEq, Repr

/-- edit_graph_aligner.py 149–155, `determine_type`. -/
def determineType (x y : Nat) (parent : Score) : ScoreType :=
  if x = parent.x then .addition else if y = parent.y then .deletion else .empty

/-- edit_graph_aligner.py 139–141, `Scorer.gap`. -/
def gap (x y : Nat) (parent : Score) : Score :=
  { type := determineType x y parent, x := x, y := y, px := parent.x, py := parent.y, g := parent.g - 1 }

/-- edit_graph_aligner.py 143–147, `Scorer.score`. -/
def scoreCell (m : Cube) (x y : Nat) (parent : Score) : Score :=
  if m.has ((y : Int) - 1) ((x : Int) - 1) then
    { type := .match, x := x, y := y, px := parent.x, py := parent.y, g := parent.g + 1 }
  else
    { type := .mismatch, x := x, y := y, px := parent.x, py := parent.y, g := parent.g - 1 }

/-- edit_graph_aligner.py 311–316, `calculate_from_upper`; `up` is `cells[previous_y][x]`. -/
def fromUpper (m : Cube) (y x : Nat) (up : Score) : Score :=
  if m.has ((y : Int) - 2) ((x : Int) - 1) then scoreCell m x y up else gap x y up

/-- edit_graph_aligner.py 308: Python's `max` returns the first maximal argument. -/
def max3 (a b c : Score) : Score :=
  let ab := if b.g > a.g then b else a
  if c.g > ab.g then c else ab

/-- edit_graph_aligner.py 278–285, the first row: `k` more cells after `prev`. -/
def firstRowFrom : Nat → Score → List Score
  | 0, _ => []
  | k + 1, prev => let c := gap (prev.x + 1) 0 prev; c :: firstRowFrom k c

/-- edit_graph_aligner.py 280: the origin. -/
def originScore : Score := { type := .empty, x := 0, y := 0, px := 0, py := 0, g := 0 }

/-- edit_graph_aligner.py 303–309, the cells `x, x+1, ...` of row `y`; `ul` is the cell up and left of cell `x`, the list
is the previous row from `x` on, `left` is the cell to the left. -/
def rowFrom (m : Cube) (y : Nat) : Nat → Score → Score → List Score → List Score
  | _, _, _, [] => []
  | x, ul, left, up :: rest =>
    let c := max3 (scoreCell m x y ul) (gap x y left) (fromUpper m y x up)
    c :: rowFrom m y (x + 1) up c rest

/-- edit_graph_aligner.py 287–309, row `y` from row `y - 1`. -/
def nextRow (m : Cube) (y : Nat) : List Score → List Score
  | [] => []
  | p :: ps => let c := gap 0 y p; c :: rowFrom m y 1 p c ps

/-- Rows `y, y+1, ...`: `k` of them. -/
def rowsFrom (m : Cube) : Nat → Nat → List Score → List (List Score)
  | 0, _, _ => []
  | k + 1, y, prev => let r := nextRow m y prev; r :: rowsFrom m k (y + 1) r

/-- edit_graph_aligner.py 274–309, `fill_needleman_wunsch_table`, for `width` ranks and `h` tokens. The code fills the
first column before the rest; the cells do not depend on that order. With no ranks line 280 raises IndexError. -/
def fillTable (m : Cube) (width h : Nat) : Py (List (List Score)) :=
  match width with
  | 0 => .error .indexError
  | k + 1 =>
    let r0 := originScore :: firstRowFrom k originScore
    .ok (r0 :: rowsFrom m h 1 r0)

/-- edit_graph_aligner.py 158–177, `ScoreIterator`: the scores from cell (y, x) back to the origin. -/
def traceback (cells : List (List Score)) : Nat → Nat → Nat → Py (List Score)
  | fuel, y, x =>
    if x = 0 ∧ y = 0 then .ok []
    else
      match fuel with
      | 0 => .error .outOfFuel
      | fuel + 1 => do
        let row ← lgetE cells y
        let c ← lgetE row x
        let rest ← traceback cells fuel c.py c.px
        .ok (c :: rest)

/-- edit_graph_aligner.py 325–333, the loop of `align_matching_tokens`. -/
def alignLoop (m : Cube) : List Score → Dict Token VId → List VId → Py (Dict Token VId)
  | [], al, _ => .ok al
  | s :: ss, al, used =>
    if s.type = .match then do
      let p ← dgetE m ((s.y : Int) - 1, (s.x : Int) - 1)
      if p.1 ∈ used then alignLoop m ss al used
      else alignLoop m ss (dset al p.2 p.1) (used ++ [p.1])
    else alignLoop m ss al used

/-- edit_graph_aligner.py 318–333, `align_matching_tokens`. -/
def alignMatching (m : Cube) (cells : List (List Score)) : Py (Dict Token VId) := do
  let row0 ← lgetE cells 0
  let path ← traceback cells (cells.length + row0.length) (cells.length - 1) (row0.length - 1)
  alignLoop m path [] []

/-- edit_graph_aligner.py 349–359, `token.token_data['_token_array_position']`. -/
def tokenPos (t : Token) : Py Nat :=
  match dget t.data .pos with
  | some (.nat p) => .ok p
  | _ => .error .keyError

/-- edit_graph_aligner.py 350–359: add a token → vertex map to the position → vertex map. -/
def updatePos : Dict Token VId → Dict Nat VId → Py (Dict Nat VId)
  | [], d => .ok d
  | (t, v) :: rest, d => do
    let p ← tokenPos t
    updatePos rest (dset d p v)

/-- edit_graph_aligner.py 244–248 and 345–347: copy the vertices of the positions `p, p+1, ...` (`k` of them) of a witness
into the vertex array. (The intermediate dict of lines 244–247 is skipped: it is filled and read with the same keys.) -/
def updateArray (p2v : Dict Nat VId) : Nat → Nat → List (Option VId) → Py (List (Option VId))
  | 0, _, va => .ok va
  | k + 1, p, va => do
    let v ← dgetE p2v p
    if p < va.length then updateArray p2v k (p + 1) (va.set p (some v)) else .error .indexError

/-- The mutable attributes of the aligner. -/
structure AlignSt where
  g : VGraph
  t2v : Dict Token VId
  p2v : Dict Nat VId
  va : List (Option VId)
  deriving DecidableEq, Repr

/-- edit_graph_aligner.py 224–226: the ranks of all vertices as a set, minus one element. Only its size is used. -/
def rankCount (g : VGraph) (rk : Ranking) : Nat :=
  (distinct (g.vertices.map (dget rk.byVertex))).length - 1

/-- edit_graph_aligner.py 218–258, one iteration of the loop over the witnesses 2..n. With `detect_transpositions` the
detector reads the attribute `additions`, which the aligner does not have (transposition_handling.py 15–20). -/
def alignStep (ts : TopoFn) (pf : Option PFilter) (detect : Bool) (ti : TokenIndex) (s : AlignSt) (w : Witness) :
    Py AlignSt := do
  let rk ← rankingOf ts s.g
  let cube ← mkCube pf ti w s.va rk
  let cells ← fillTable cube (rankCount s.g rk) w.tokens.length
  let al ← alignMatching cube cells
  let mg := merge s.g w.sigil w.tokens al
  let t2v := dupdate s.t2v mg.2
  let p2v ← updatePos t2v s.p2v
  let p2v ← updatePos al p2v
  let r ← ti.rangeOf w.sigil
  let va ← updateArray p2v (r.2 - r.1) r.1 s.va
  if detect then .error .attributeError else .ok { g := mg.1, t2v := t2v, p2v := p2v, va := va }

/-- edit_graph_aligner.py 218–258, the loop. -/
def alignWitnesses (ts : TopoFn) (pf : Option PFilter) (detect : Bool) (ti : TokenIndex) :
    List Witness → AlignSt → Py AlignSt
  | [], s => .ok s
  | w :: ws, s => do
    let s' ← alignStep ts pf detect ti s w
    alignWitnesses ts pf detect ti ws s'

/-- edit_graph_aligner.py 207–215: the first witness. -/
def firstWitness (ti : TokenIndex) (w : Witness) : Py AlignSt := do
  let mg := merge VGraph.init w.sigil w.tokens []
  let p2v ← updatePos mg.2 []
  let r ← ti.rangeOf w.sigil
  let va ← updateArray p2v (r.2 - r.1) r.1 (List.replicate ti.arr.length none)
  .ok { g := mg.1, t2v := mg.2, p2v := p2v, va := va }

/-- edit_graph_aligner.py 195–258, `EditGraphAligner.collate` on a fresh graph. The witnesses are those of the token index
(same objects as the collation's, after indexing). -/
def collateGraph (ts : TopoFn) (pf : Option PFilter) (detect : Bool) (ws : Collation) : Py (TokenIndex × AlignSt) := do
  let ti ← mkTokenIndex ws
  match ti.ws with
  | [] => .error .indexError
  | w :: rest => do
    let s ← firstWitness ti w
    let s' ← alignWitnesses ts pf detect ti rest s
    .ok (ti, s')

end CollateX
