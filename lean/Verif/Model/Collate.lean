import Verif.Model.EditGraph
import Verif.Model.NearMatching
import Verif.Model.Export
/-
`core_functions.py` 33–89, `collate`.
-/

namespace CollateX

/-- The library functions and character classes the code depends on. -/
structure Env where
  cc : CharClass
  topo : TopoFn
  ratio : RatioFn

/-- The keyword arguments of `collate` (core_functions.py 33–34); `debug_scores` and `indent` only affect printing. -/
structure Opts where
  output : Str := S "table"
  layout : Str := S "horizontal"
  segmentation : Bool := true
  nearMatch : Bool := false
  astar : Bool := false
  detect : Bool := false
  pfilter : Option PFilter := none

/-- What `collate` returns. For the SVG and HTML formats the value is what the display library is given; `html` is
`PrettyTable.get_html_string` of the whole table. -/
inductive Output where
  | svg (g : VGraph)
  | graph (g : VGraph)
  | json (j : JsonTable)
  | html (t : Table)
  | html2 (sigla : List Str) (cells : List (List (Str × Bool)))
  | table (t : Table)
  | xml (apps : List (List Rdg))
  | tei (nodes : List TeiNode)
  | csv (s : Str)
  deriving DecidableEq, Repr

/-- core_functions.py 43–64: the graph and its ranking, with the (indexed) witnesses. With `astar` line 53 calls
`ExperimentalAstarAligner.collate` with one argument too few: TypeError (experimental_astar_aligner.py 23). -/
def collateRanked (env : Env) (ws : Collation) (o : Opts) : Py (Collation × VGraph × Ranking) :=
  if o.astar then .error .typeError
  else do
    let r ← collateGraph env.topo o.pfilter o.detect ws
    let g := r.2.g
    let rk ← rankingOf env.topo g
    let p ← (if o.nearMatch then
        if o.segmentation then .error .segmentationError
        else performNearMatch env.topo env.ratio g rk
      else .ok (g, rk) : Py (VGraph × Ranking))
    if o.segmentation then do
      let g' ← join env.cc p.1
      let rk' ← rankingOf env.topo g'
      .ok (r.1.ws, g', rk')
    else .ok (r.1.ws, p.1, p.2)

/-- core_functions.py 65–89: the requested output. -/
def render (env : Env) (ws : Collation) (g : VGraph) (rk : Ranking) (o : Opts) : Py Output :=
  if o.output = S "svg" ∨ o.output = S "svg_simple" then .ok (.svg g)
  else if o.output = S "graph" then .ok (.graph g)
  else
    let t := mkTable ws g rk
    if o.output = S "json" then
      if o.layout = S "vertical" then .ok (.json (exportVerticalJson t ws)) else .ok (.json (exportJson t false))
    else if o.output = S "html" then .ok (.html t)
    else if o.output = S "html2" then do
      let cells ← html2Rows ws t.columns
      .ok (.html2 (ws.map Witness.sigil) cells)
    else if o.output = S "table" then .ok (.table t)
    else if o.output = S "xml" then do
      let x ← exportXml t.columns
      .ok (.xml x)
    else if o.output = S "tei" then do
      let x ← exportTei env.cc t
      .ok (.tei x)
    else if o.output = S "csv" ∨ o.output = S "tsv" then do
      let x ← exportCsv t (o.output = S "tsv")
      .ok (.csv x)
    else .error .exception

/-- core_functions.py 33–89, `collate` on a `Collation`. -/
def collate (env : Env) (ws : Collation) (o : Opts) : Py Output := do
  let (ws', g, rk) ← collateRanked env ws o
  render env ws' g rk o

/-- core_functions.py 36–41, `collate` on a dict: build the collation first. -/
def collateDict (env : Env) (data : List WitnessData) (o : Opts) : Py Output := do
  let ws ← addWitnesses env.cc [] data
  collate env ws o

/-- `collate` with `output="table"`. -/
def collateTable (env : Env) (ws : Collation) (o : Opts) : Py Table := do
  let (ws', g, rk) ← collateRanked env ws o
  .ok (mkTable ws' g rk)

end CollateX
