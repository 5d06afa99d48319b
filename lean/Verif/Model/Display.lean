import Verif.Model.Collate
import Verif.Model.TextWrap
/-
The display functions: `HTML.py` 100–332, `display_module.py` 27–125, `core_classes.py` 116–155.
-/

namespace CollateX

/-! ### HTML.py -/

/-- HTML.py 100–135, `TableCell`. (The values of the attributes are strings.) -/
structure TableCell where
  text : Str
  bgcolor : Option Str := none
  header : Bool := false
  width : Option Str := none
  align : Option Str := none
  char : Option Str := none
  charoff : Option Str := none
  valign : Option Str := none
  style : Option Str := none
  attribs : Dict Str Str := []
  deriving DecidableEq, Repr

/-- `if self.x: self.attribs['x'] = self.x`: `None` and the empty string are false. -/
def setAttr (d : Dict Str Str) (k : Str) (v : Option Str) : Dict Str Str :=
  match v with
  | some (c :: cs) => dset d k (c :: cs)
  | _ => d

/-- `for attr in self.attribs: attribs_str += ' %s="%s"' % (attr, self.attribs[attr])` -/
def attribsStr : Dict Str Str → Str
  | [] => []
  | (k, v) :: d => ' ' :: (k ++ S "=\"" ++ v ++ S "\"") ++ attribsStr d

/-- HTML.py 137–157, `TableCell.__str__`. -/
def TableCell.html (c : TableCell) : Str :=
  let d := setAttr c.attribs (S "bgcolor") c.bgcolor
  let d := setAttr d (S "width") c.width
  let d := setAttr d (S "align") c.align
  let d := setAttr d (S "char") c.char
  let d := setAttr d (S "charoff") c.charoff
  let d := setAttr d (S "valign") c.valign
  let d := setAttr d (S "style") c.style
  let text := if c.text = [] then S "&nbsp;" else c.text
  if c.header then S "  <TH" ++ attribsStr d ++ S ">" ++ text ++ S "</TH>\n"
  else S "  <TD" ++ attribsStr d ++ S ">" ++ text ++ S "</TD>\n"

/-- An item of a row: a string or a `TableCell`. -/
inductive RowItem where
  | text (s : Str)
  | cell (c : TableCell)
  deriving DecidableEq, Repr

/-- HTML.py 161–190, `TableRow`. -/
structure TableRow where
  cells : List RowItem
  bgcolor : Option Str := none
  header : Bool := false
  attribs : Dict Str Str := []
  colAlign : Option (List Str) := none
  colValign : Option (List Str) := none
  colChar : Option (List Str) := none
  colCharoff : Option (List Str) := none
  colStyles : Option (List Str) := none
  deriving DecidableEq, Repr

/-- HTML.py 200: `col = self.cells.index(cell)`. For a string this is the first equal string; `TableCell` objects are compared by
identity (an object that stands twice in a row is not modelled), so for the `i`-th item it is `i`. -/
def itemIndex (cells : List RowItem) (i : Nat) : RowItem → Nat
  | .text s => cells.findIdx (fun x => decide (x = .text s))
  | .cell _ => i

/-- `if self.col_align and cell.align is None: cell.align = self.col_align[col]`: IndexError when the list is too short. -/
def applyCol (l : Option (List Str)) (col : Nat) (v : Option Str) : Py (Option Str) :=
  match l, v with
  | some (x :: xs), none => do
    let a ← lgetE (x :: xs) col
    .ok (some a)
  | _, v => .ok v

/-- HTML.py 199–215, the loop over the cells; `i` is the number of the next cell. -/
def TableRow.cellsHtml (r : TableRow) : Nat → List RowItem → Py Str
  | _, [] => .ok []
  | i, x :: xs => do
    let col := itemIndex r.cells i x
    let c : TableCell := match x with
      | .text s => { text := s, header := r.header }
      | .cell c => c
    let align ← applyCol r.colAlign col c.align
    let char ← applyCol r.colChar col c.char
    let charoff ← applyCol r.colCharoff col c.charoff
    let valign ← applyCol r.colValign col c.valign
    let style ← applyCol r.colStyles col c.style
    let rest ← TableRow.cellsHtml r (i + 1) xs
    .ok ({ c with align := align, char := char, charoff := charoff, valign := valign, style := style }.html ++ rest)

/-- HTML.py 192–217, `TableRow.__str__`. -/
def TableRow.html (r : TableRow) : Py Str := do
  let cs ← r.cellsHtml 0 r.cells
  .ok (S " <TR" ++ attribsStr (setAttr r.attribs (S "bgcolor") r.bgcolor) ++ S ">\n" ++ cs ++ S " </TR>\n")

/-- A row of a table: a list of items or a `TableRow`. -/
inductive RowIn where
  | items (l : List RowItem)
  | row (r : TableRow)
  deriving DecidableEq, Repr

/-- HTML.py 221–265, `Table`. The default style is `TABLE_STYLE_THINBORDER` (HTML.py 94). -/
structure HtmlTable where
  rows : List RowIn
  headerRow : Option RowIn := none
  border : Option Str := some (S "1")
  style : Option Str := some (S "border: 1px solid #000000; border-collapse: collapse;")
  width : Option Str := none
  cellspacing : Option Str := none
  cellpadding : Option Str := some (S "4")
  attribs : Dict Str Str := []
  colWidth : List Str := []
  colAlign : Option (List Str) := none
  colValign : Option (List Str) := none
  colChar : Option (List Str) := none
  colCharoff : Option (List Str) := none
  colStyles : Option (List Str) := none
  deriving DecidableEq, Repr

/-- `if self.col_align and not row.col_align: row.col_align = self.col_align` -/
def inheritCol (t r : Option (List Str)) : Option (List Str) :=
  match t, r with
  | some (x :: xs), none => some (x :: xs)
  | some (x :: xs), some [] => some (x :: xs)
  | _, r => r

/-- HTML.py 313–329, the data rows. -/
def HtmlTable.rowsHtml (t : HtmlTable) : List RowIn → Py Str
  | [] => .ok []
  | x :: xs => do
    let r : TableRow := match x with
      | .items l => { cells := l }
      | .row r => r
    let a ← { r with
      colAlign := inheritCol t.colAlign r.colAlign
      colChar := inheritCol t.colChar r.colChar
      colCharoff := inheritCol t.colCharoff r.colCharoff
      colValign := inheritCol t.colValign r.colValign
      colStyles := inheritCol t.colStyles r.colStyles }.html
    let b ← t.rowsHtml xs
    .ok (a ++ b)

/-- HTML.py 307–312, the header row: nothing for an empty list. -/
def HtmlTable.headerHtml (t : HtmlTable) : Py Str :=
  match t.headerRow with
  | none => .ok []
  | some (.items []) => .ok []
  | some (.items (x :: xs)) => { cells := x :: xs, header := true : TableRow }.html
  | some (.row r) => r.html

/-- HTML.py 267–332, `Table.__str__`. -/
def HtmlTable.html (t : HtmlTable) : Py Str := do
  let d := setAttr t.attribs (S "border") t.border
  let d := setAttr d (S "style") t.style
  let d := setAttr d (S "width") t.width
  let d := setAttr d (S "cellspacing") t.cellspacing
  let d := setAttr d (S "cellpadding") t.cellpadding
  let cols := t.colWidth.flatMap (fun w => S "  <COL width=\"" ++ w ++ S "\">\n")
  let h ← t.headerHtml
  let rs ← t.rowsHtml t.rows
  .ok (S "<TABLE" ++ attribsStr d ++ S ">\n" ++ cols ++ h ++ rs ++ S "</TABLE>")

/-! ### The HTML table with colours -/

/-- display_module.py 35: the cells of one row of the HTML table (a column of the alignment table). -/
def html2TableCells (cc : CharClass) (f : WrapFn) : List (Str × Bool) → Py (List RowItem)
  | [] => .ok []
  | (s, variant) :: cs => do
    let x ← fill20 cc f s
    let rest ← html2TableCells cc f cs
    .ok (.cell { text := x, bgcolor := some (if variant then S "FF0000" else S "00FFFF") } :: rest)

/-- display_module.py 30–36, the rows. -/
def html2TableRows (cc : CharClass) (f : WrapFn) : List (List (Str × Bool)) → Py (List RowIn)
  | [] => .ok []
  | r :: rs => do
    let a ← html2TableCells cc f r
    let b ← html2TableRows cc f rs
    .ok (.row { cells := a } :: b)

/-- display_module.py 27–41, `visualize_table_vertically_with_colors`: the string that is displayed. (The texts and colours of the
cells are `html2Rows`.) -/
def html2String (cc : CharClass) (f : WrapFn) (sigla : List Str) (cells : List (List (Str × Bool))) : Py Str := do
  let rows ← html2TableRows cc f cells
  { rows := rows, headerRow := some (.items (sigla.map .text)) : HtmlTable }.html

/-! ### The printed table -/

/-- core_classes.py 138 and 153: the text of a cell, `-` for an empty one. -/
def printText (c : Option (List Token)) : Py Str :=
  match cellOrNone c with
  | none => .ok (S "-")
  | some ts => cellText ts

/-- core_classes.py 139: the cells of one row, without white space at the end. -/
def printCells (cc : CharClass) : List (Option (List Token)) → Py (List Str)
  | [] => .ok []
  | c :: cs => do
    let a ← printText c
    let b ← printCells cc cs
    .ok (rstrip cc a :: b)

/-- core_classes.py 132–144, `visualizeTableHorizontal`: the rows handed to `PrettyTable`. -/
def printHorizontal (cc : CharClass) : List Row → Py (List (List Str))
  | [] => .ok []
  | r :: rs => do
    let a ← printCells cc r.cells
    let b ← printHorizontal cc rs
    .ok ((r.header :: a) :: b)

/-- core_classes.py 154: the cells of one row, wrapped. -/
def printWrapped (cc : CharClass) (f : WrapFn) : List (Option (List Token)) → Py (List Str)
  | [] => .ok []
  | c :: cs => do
    let a ← printText c
    let x ← fill20 cc f a
    let b ← printWrapped cc f cs
    .ok (x :: b)

/-- core_classes.py 147–155, `visualizeTableVertically`: the columns handed to `PrettyTable`, each with its header. -/
def printVertical (cc : CharClass) (f : WrapFn) : List Row → Py (List (Str × List Str))
  | [] => .ok []
  | r :: rs => do
    let a ← printWrapped cc f r.cells
    let b ← printVertical cc f rs
    .ok ((r.header, a) :: b)

/-- What is handed to `PrettyTable`. -/
inductive PrintedTable where
  | horizontal (rows : List (List Str))
  | vertical (cols : List (Str × List Str))
  deriving DecidableEq, Repr

/-- core_classes.py 121–129, `create_table_visualization` (which is also `AlignmentTable.__str__`). -/
def printTable (cc : CharClass) (f : WrapFn) (layout : Str) (t : Table) : Py PrintedTable :=
  if layout = S "vertical" then do
    let x ← printVertical cc f t.rows
    .ok (.vertical x)
  else if layout = S "horizontal" then do
    let x ← printHorizontal cc t.rows
    .ok (.horizontal x)
  else .error .exception

/-! ### The drawing of the variant graph -/

/-- A statement of the drawing: a node, an edge, a near-match edge (its label, the weight, is in `Model/NearWeights.lean`), and a group of nodes of
the same rank. -/
inductive Drawn where
  | node (name label : Str)
  | edge (src tgt label : Str)
  | dashed (src tgt : Str)
  | same (names : List Str)
  deriving DecidableEq, Repr

/-- display_module.py 90: `<` and then `>` are replaced by entities. -/
def escapeHtml : Str → Str
  | [] => []
  | c :: cs => (if c = '<' then S "&lt;" else if c = '>' then S "&gt;" else [c]) ++ escapeHtml cs

/-- display_module.py 89–90: the reading of a witness at a vertex. -/
def svgReading : List Token → Py Str
  | [] => .ok []
  | t :: ts => do
    let a ← tokenT t
    let b ← svgReading ts
    .ok (escapeHtml a ++ b)

/-- display_module.py 87–91: `reverse_dict`, the sigla per reading. -/
def reverseReadings : Dict Str (List Token) → Dict Str (List Str) → Py (Dict Str (List Str))
  | [], d => .ok d
  | (σ, ts) :: rest, d => do
    let s ← svgReading ts
    reverseReadings rest (setdefaultAppend d s σ)

/-- Insertion into a list sorted by key. -/
def insertReading (x : Str × List Str) : List (Str × List Str) → List (Str × List Str)
  | [] => [x]
  | y :: ys => if strLt y.1 x.1 then y :: insertReading x ys else x :: y :: ys

/-- `sorted(reverse_dict.items())`: the keys are distinct. -/
def sortedReadings : Dict Str (List Str) → List (Str × List Str)
  | [] => []
  | x :: xs => insertReading x (sortedReadings xs)

/-- `', '.join(value)` -/
def commaJoin : List Str → Str
  | [] => []
  | [s] => s
  | s :: ss => s ++ S ", " ++ commaJoin ss

/-- display_module.py 93–95: one row of the label. -/
def readingRow (p : Str × List Str) : Str :=
  S "<TR><TD ALIGN='LEFT'><FONT FACE='Bukyvede'>" ++ p.1 ++ S "</FONT></TD><TD ALIGN='LEFT'>" ++ commaJoin p.2 ++ S "</TD></TR>"

/-- display_module.py 84–97: the label of a vertex in the full drawing. -/
def svgLabel (x : Vertex) (rank : Nat) : Py Str := do
  let d ← reverseReadings x.tokens []
  .ok (S "<<TABLE CELLSPACING=\"0\">" ++
    (S "<TR><TD ALIGN='LEFT'><B>" ++ x.label ++ S "</B></TD><TD ALIGN='LEFT'>exact: " ++ natStr rank ++ S "</TD></TR>" ++
      (sortedReadings d).flatMap readingRow) ++ S "</TABLE>>")

/-- display_module.py 74–97: the nodes; `counter` is the number of nodes already drawn. -/
def svgNodes (simple : Bool) (rk : Ranking) : Nat → Dict VId Vertex → Py (List Drawn × Dict VId Str)
  | _, [] => .ok ([], [])
  | counter, (v, x) :: rest => do
    let name := natStr (counter + 1)
    let label ← (if simple then .ok (if x.label = [] then S "#" else x.label)
      else do
        let r ← dgetE rk.byVertex v
        svgLabel x r : Py Str)
    let p ← svgNodes simple rk (counter + 1) rest
    .ok (.node name label :: p.1, (v, name) :: p.2)

/-- display_module.py 99–103: the edges. -/
def svgEdges (mapping : Dict VId Str) : List Edge → Py (List Drawn)
  | [] => .ok []
  | e :: es => do
    let a ← dgetE mapping e.src
    let b ← dgetE mapping e.tgt
    let rest ← svgEdges mapping es
    .ok (.edge a b e.label :: rest)

/-- display_module.py 105–110: the near-match edges. -/
def svgNear (mapping : Dict VId Str) : List (VId × VId) → Py (List Drawn)
  | [] => .ok []
  | e :: es => do
    let a ← dgetE mapping e.1
    let b ← dgetE mapping e.2
    let rest ← svgNear mapping es
    .ok (.dashed a b :: rest)

/-- `[mapping[item] for item in value]` -/
def svgNames (mapping : Dict VId Str) : List VId → Py (List Str)
  | [] => .ok []
  | v :: vs => do
    let a ← dgetE mapping v
    let rest ← svgNames mapping vs
    .ok (a :: rest)

/-- display_module.py 111–119: the groups of the same rank. -/
def svgRanks (mapping : Dict VId Str) : List (Nat × List VId) → Py (List Drawn)
  | [] => .ok []
  | p :: ps => do
    let a ← svgNames mapping p.2
    let rest ← svgRanks mapping ps
    .ok (.same a :: rest)

/-- display_module.py 68–125, `display_variant_graph_as_svg`: the statements given to graphviz. networkx lists the edges node by
node. -/
def drawGraph (ts : TopoFn) (simple : Bool) (g : VGraph) : Py (List Drawn) := do
  let rk ← rankingOf ts g
  let (nodes, mapping) ← svgNodes simple rk 0 g.nodes
  let edges ← svgEdges mapping (g.vertices.flatMap g.outEdges)
  let near ← svgNear mapping (g.vertices.flatMap (fun v => g.near.filter (fun e => e.1 = v)))
  let ranks ← svgRanks mapping rk.byRank
  .ok (nodes ++ edges ++ near ++ ranks)

end CollateX
