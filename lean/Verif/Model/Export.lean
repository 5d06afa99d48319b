import Verif.Model.Graph
import Verif.Model.TokenIndex
/-
The exporters: `core_functions.py` 92–186, `display_module.py` 27–64, `core_classes.py` 59–61 and 131–155.
-/

namespace CollateX

/-- `cell` is true in a condition when it is neither `None` nor an empty list. -/
def cellOrNone (c : Option (List Token)) : Option (List Token) :=
  match c with
  | some [] => none
  | c => c

/-- `token_data['t']`, used as a string: KeyError when absent, TypeError in `"".join` when not a string. -/
def tokenT (t : Token) : Py Str :=
  match dget t.data .t with
  | some (.str s) => .ok s
  | some _ => .error .typeError
  | none => .error .keyError

/-- `"".join(item.token_data["t"] for item in cell)` -/
def cellText : List Token → Py Str
  | [] => .ok []
  | t :: ts => do
    let a ← tokenT t
    let b ← cellText ts
    .ok (a ++ b)

/-! ### JSON (the value handed to `json.dumps`) -/

/-- The value of `json_output`. -/
structure JsonTable where
  table : List (List (Option (List TokenData)))
  witnesses : List Str
  status : Option (List Bool)
  deriving DecidableEq, Repr

/-- `[listItem.token_data for listItem in cell] if cell else None` -/
def jsonCell (c : Option (List Token)) : Option (List TokenData) := (cellOrNone c).map (List.map Token.data)

/-- core_functions.py 109–122, `export_alignment_table_as_json`. -/
def exportJson (t : Table) (status : Bool) : JsonTable :=
  { table := t.rows.map (fun r => r.cells.map jsonCell)
    witnesses := t.rows.map Row.header
    status := if status then some (t.columns.map Column.variant) else none }

/-- core_functions.py 98–101: `sigli` after the witnesses of one column. -/
def addSigla (ws : Collation) (sigli : List Str) : List Str :=
  ws.foldl (fun l w => if w.sigil ∈ l then l else l ++ [w.sigil]) sigli

/-- core_functions.py 92–106, `export_alignment_table_as_vertical_json`. -/
def exportVerticalJson (t : Table) (ws : Collation) : JsonTable :=
  { table := t.columns.map (fun c => ws.map (fun w => jsonCell (dget c.tokens w.sigil)))
    witnesses := t.columns.foldl (fun l _ => addSigla ws l) []
    status := none }

/-! ### CSV -/

/-- core_classes.py 59–61, `Row.to_list_of_strings`. -/
def cellsToStrings : List (Option (List Token)) → Py (List (Option Str))
  | [] => .ok []
  | c :: cs => do
    let a ← (match cellOrNone c with
      | none => .ok none
      | some ts => do
        let s ← cellText ts
        .ok (some s) : Py (Option Str))
    let b ← cellsToStrings cs
    .ok (a :: b)

/-- `csv.writer` (excel dialects, QUOTE_MINIMAL): a field needs quotes when it contains the delimiter, the quote
character, or a character of the line terminator. -/
def csvNeedsQuote (delim : Char) (s : Str) : Bool :=
  s.any (fun c => c == delim || c == '"' || c == '\r' || c == '\n')

/-- `csv.writer`: quote characters are doubled inside a quoted field. -/
def csvDouble : Str → Str
  | [] => []
  | c :: cs => if c == '"' then '"' :: '"' :: csvDouble cs else c :: csvDouble cs

/-- `csv.writer`: one field; `None` is written as the empty string. -/
def csvField (delim : Char) (f : Option Str) : Str :=
  match f with
  | none => []
  | some s => if csvNeedsQuote delim s then '"' :: (csvDouble s ++ ['"']) else s

/-- Fields separated by the delimiter. -/
def csvJoin (delim : Char) : List Str → Str
  | [] => []
  | [f] => f
  | f :: fs => f ++ delim :: csvJoin delim fs

/-- `csv.writer.writerow`: the record and the line terminator `\r\n`. A record that would be empty is written as `""`. -/
def csvRecord (delim : Char) (fields : List (Option Str)) : Str :=
  let rec0 := csvJoin delim (fields.map (csvField delim))
  (if rec0 = [] ∧ fields ≠ [] then ['"', '"'] else rec0) ++ ['\r', '\n']

/-- `io.StringIO(newline=None)`: universal newlines, every `\r\n` and every lone `\r` becomes `\n` on writing. -/
def universalNewlines : Str → Str
  | [] => []
  | '\r' :: '\n' :: cs => '\n' :: universalNewlines cs
  | '\r' :: cs => '\n' :: universalNewlines cs
  | c :: cs => c :: universalNewlines cs

/-- display_module.py 60–63, the loop over the rows. -/
def csvRows (delim : Char) : List Row → Py Str
  | [] => .ok []
  | r :: rs => do
    let cells ← cellsToStrings r.cells
    let rest ← csvRows delim rs
    .ok (universalNewlines (csvRecord delim (some r.header :: cells)) ++ rest)

/-- display_module.py 52–64, `display_alignment_table_as_csv`. -/
def exportCsv (t : Table) (tsv : Bool) : Py Str := csvRows (if tsv then '\t' else ',') t.rows

/-! ### XML (the elements handed to `etree.tostring`) -/

/-- Insertion into a list sorted by key. -/
def insertByKey (x : Str × List Token) : List (Str × List Token) → List (Str × List Token)
  | [] => [x]
  | y :: ys => if strLt y.1 x.1 then y :: insertByKey x ys else x :: y :: ys

/-- `sorted(column.tokens_per_witness.items())`: the keys are distinct, so the token lists are never compared. -/
def sortedItems : Dict Str (List Token) → List (Str × List Token)
  | [] => []
  | x :: xs => insertByKey x (sortedItems xs)

/-- `str(token_data["t"])` -/
def tokenTStr (t : Token) : Py Str :=
  match dget t.data .t with
  | some (.str s) => .ok s
  | some (.nat n) => .ok (natStr n)
  | some (.raw r) => .ok r
  | none => .error .keyError

/-- core_functions.py 132: the text of a `rdg`. -/
def xmlText : List Token → Py Str
  | [] => .ok []
  | t :: ts => do
    let a ← tokenTStr t
    let b ← xmlText ts
    .ok (a ++ b)

/-- A `rdg` element: the `wit` attribute and the text. -/
structure Rdg where
  wit : Str
  text : Str
  deriving DecidableEq, Repr

/-- core_functions.py 129–133: the `rdg` elements of a column. -/
def xmlRdgs : List (Str × List Token) → Py (List Rdg)
  | [] => .ok []
  | (k, v) :: rest => do
    let s ← xmlText v
    let r ← xmlRdgs rest
    .ok (⟨'#' :: k, s⟩ :: r)

/-- core_functions.py 125–137, `export_alignment_table_as_xml`: the children of `<root>`, each an `app` with its `rdg`s. -/
def exportXml : List Column → Py (List (List Rdg))
  | [] => .ok []
  | c :: cs => do
    let a ← xmlRdgs (sortedItems c.tokens)
    let b ← exportXml cs
    .ok (a :: b)

/-! ### TEI (the nodes handed to `toxml`) -/

/-- A child of the `cx:apparatus` element. -/
inductive TeiNode where
  | text (s : Str)
  | app (rdgs : List Rdg)
  deriving DecidableEq, Repr

/-- `s.strip()` -/
def strip (cc : CharClass) (s : Str) : Str := rstrip cc (s.dropWhile cc.space)

/-- core_functions.py 153: `t_readings.endswith((" ", r"\u0009", r"\000a"))`. The last two are raw strings: six and
five characters beginning with a backslash. -/
def endsWs (s : Str) : Bool :=
  (S " ").isSuffixOf s || (S "\\u0009").isSuffixOf s || (S "\\000a").isSuffixOf s

/-- core_functions.py 147–155: `value_dict` and `ws_flag` of one column. -/
def teiGroup (cc : CharClass) :
    List (Str × List Token) → Dict Str (List Str) → Bool → Py (Dict Str (List Str) × Bool)
  | [], d, ws => .ok (d, ws)
  | (k, v) :: rest, d, ws => do
    let s ← cellText v
    teiGroup cc rest (setdefaultAppend d (strip cc s) k) (if ws = false && endsWs s then true else ws)

/-- core_functions.py 177: `" ".join(["#" + item for item in value_dict[key]])` -/
def witAttr : List Str → Str
  | [] => []
  | [s] => '#' :: s
  | s :: ss => ('#' :: s) ++ ' ' :: witAttr ss

/-- core_functions.py 146–182: the nodes of one column. -/
def teiColumn (cc : CharClass) (nRows : Nat) (c : Column) : Py (List TeiNode) := do
  let (d, ws) ← teiGroup cc (sortedItems c.tokens) [] false
  let main : TeiNode :=
    match d with
    | [(k, v)] => if v.length = nRows then .text k else .app [⟨witAttr v, k⟩]
    | d => .app (d.map (fun p => ⟨witAttr p.2, p.1⟩))
  .ok (main :: (if ws then [.text [' ']] else []))

/-- core_functions.py 146: the loop over the columns. -/
def teiColumns (cc : CharClass) (nRows : Nat) : List Column → Py (List TeiNode)
  | [] => .ok []
  | c :: cs => do
    let a ← teiColumn cc nRows c
    let b ← teiColumns cc nRows cs
    .ok (a ++ b)

/-- core_functions.py 140–186, `export_alignment_table_as_tei`. -/
def exportTei (cc : CharClass) (t : Table) : Py (List TeiNode) := teiColumns cc t.rows.length t.columns

/-! ### HTML with colours (the cells handed to `HTML.Table`) -/

/-- display_module.py 27–41, `visualize_table_vertically_with_colors`: per column and witness, the text before line
wrapping (`-` for an empty cell) and whether the cell is red (variant). -/
def html2Cell (c : Column) (sigil : Str) : Py (Str × Bool) :=
  match cellOrNone (dget c.tokens sigil) with
  | none => .ok (S "-", c.variant)
  | some ts => do
    let s ← cellText ts
    .ok (s, c.variant)

/-- The cells of one column. -/
def html2Cells (c : Column) : Collation → Py (List (Str × Bool))
  | [] => .ok []
  | w :: ws => do
    let a ← html2Cell c w.sigil
    let b ← html2Cells c ws
    .ok (a :: b)

/-- All columns. -/
def html2Rows (ws : Collation) : List Column → Py (List (List (Str × Bool)))
  | [] => .ok []
  | c :: cs => do
    let a ← html2Cells c ws
    let b ← html2Rows ws cs
    .ok (a :: b)

end CollateX
