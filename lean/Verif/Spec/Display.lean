import Verif.Model.Display
import Verif.Spec.Export
import Verif.Spec.Tokens
/-
Specifications of the displayed forms: wrapped texts, what a browser sees of an HTML table, drawings of graphs.
-/

namespace CollateX.Spec

/-! ### Wrapped texts -/

/-- What is assumed about the library functions behind `textwrap`. -/
structure WrapSpec (f : WrapFn) : Prop where
  whole : ∀ s, (f.split s).flatten = s
  nonempty : ∀ s, ∀ c ∈ f.split s, c ≠ []
  cut_le : ∀ c n, f.cut c n ≤ n
  cut_pos : ∀ c n, 0 < n → 0 < f.cut c n

/-- The six ASCII white space characters are white space. -/
def AsciiSpaces (cc : CharClass) : Prop := ∀ c ∈ [' ', '\t', '\n', '\x0b', '\x0c', '\r'], cc.space c = true

/-- The lines of a text. -/
def linesOf : Str → List Str
  | [] => [[]]
  | c :: cs => if c = '\n' then [] :: linesOf cs else
    match linesOf cs with
    | [] => [[c]]
    | l :: ls => (c :: l) :: ls

/-- `r` is `s` with other white space, in lines of at most 20 characters. -/
def Wrapped (cc : CharClass) (s r : Str) : Prop := squeeze cc r = squeeze cc s ∧ ∀ l ∈ linesOf r, l.length ≤ 20

/-! ### Printed tables -/

/-- The printed text `x` of a cell: `-` for an empty cell, and otherwise its text without white space at the end. -/
def PrintedCell (cc : CharClass) (cell : Option (List Token)) (x : Str) : Prop :=
  match cell with
  | none => x = S "-"
  | some ts => ∃ s, TextOf ts s ∧ TrailingSpaceRemoved cc s x

/-- The wrapped text `x` of a cell: `-` for an empty cell, and otherwise its text, wrapped. -/
def WrappedCell (cc : CharClass) (cell : Option (List Token)) (x : Str) : Prop :=
  match cell with
  | none => x = S "-"
  | some ts => ∃ s, TextOf ts s ∧ Wrapped cc s x

/-! ### HTML -/

/-- A piece of an HTML text. -/
inductive HtmlPiece where
  | tag (s : Str)
  | text (s : Str)
  deriving DecidableEq, Repr

/-- Read HTML: a tag is what stands between `<` and the next `>`. The arguments are whether we are inside a tag, what has been read of
the current piece, and the input. -/
def readHtml : Bool → Str → Str → List HtmlPiece
  | false, acc, [] => [.text acc]
  | true, acc, [] => [.tag acc]
  | false, acc, c :: cs => if c = '<' then .text acc :: readHtml true [] cs else readHtml false (acc ++ [c]) cs
  | true, acc, c :: cs => if c = '>' then .tag acc :: readHtml false [] cs else readHtml true (acc ++ [c]) cs

/-- A cell of a table as it is seen: the tag with its attributes, and the text. -/
structure SeenCell where
  tag : Str
  text : Str
  deriving DecidableEq, Repr

/-- The rows of a table. The arguments are the current row and the current cell, if any. Tags other than those of rows and cells are
ignored. -/
def rowsOf : Option (List SeenCell) → Option SeenCell → List HtmlPiece → List (List SeenCell)
  | _, _, [] => []
  | row, cell, .text x :: ps => rowsOf row (cell.map (fun c => { c with text := c.text ++ x })) ps
  | row, cell, .tag t :: ps =>
    if (S "TR").isPrefixOf t then rowsOf (some []) none ps
    else if (S "/TR").isPrefixOf t then row.getD [] :: rowsOf none none ps
    else if (S "TD").isPrefixOf t || (S "TH").isPrefixOf t then rowsOf row (some ⟨t, []⟩) ps
    else if (S "/TD").isPrefixOf t || (S "/TH").isPrefixOf t then rowsOf (row.map (· ++ cell.toList)) none ps
    else rowsOf row cell ps

/-- What is seen of an HTML table. -/
def seenRows (s : Str) : List (List SeenCell) := rowsOf none none (readHtml false [] s)

/-- A cell of the coloured table: red if the column is variant and cyan if not; with the text of the cell, wrapped, `-` for an empty
cell, and a non-breaking space for white space only. -/
def ColouredCell (cc : CharClass) (variant : Bool) (cell : Option (List Token)) (x : SeenCell) : Prop :=
  x.tag = (if variant then S "TD bgcolor=\"FF0000\"" else S "TD bgcolor=\"00FFFF\"") ∧
  match cell with
  | none => x.text = S "-"
  | some ts => ∃ s, TextOf ts s ∧ (Wrapped cc s x.text ∧ x.text ≠ [] ∨ squeeze cc s = [] ∧ x.text = S "&nbsp;")

/-! ### Drawings -/

/-- `&lt;` and `&gt;` stand for `<` and `>`. -/
def unescape : Str → Str
  | '&' :: 'l' :: 't' :: ';' :: cs => '<' :: unescape cs
  | '&' :: 'g' :: 't' :: ';' :: cs => '>' :: unescape cs
  | c :: cs => c :: unescape cs
  | [] => []

/-- The label of a vertex in the full drawing: its label and its rank, and one row for each reading with its witnesses. -/
def fullLabel (label : Str) (rank : Nat) (rows : List (Str × List Str)) : Str :=
  S "<<TABLE CELLSPACING=\"0\"><TR><TD ALIGN='LEFT'><B>" ++ label ++ S "</B></TD><TD ALIGN='LEFT'>exact: " ++ (toString rank).toList ++
    S "</TD></TR>" ++ (rows.map (fun p => S "<TR><TD ALIGN='LEFT'><FONT FACE='Bukyvede'>" ++ p.1 ++
      S "</FONT></TD><TD ALIGN='LEFT'>" ++ [',', ' '].intercalate p.2 ++ S "</TD></TR>")).flatten ++ S "</TABLE>>"

/-- The rows list each witness of the vertex once, with its own reading; the readings are distinct and free of markup. -/
structure ReadingRows (tokens : Dict Str (List Token)) (rows : List (Str × List Str)) : Prop where
  distinct : (rows.map Prod.fst).Nodup
  sigla : (rows.flatMap Prod.snd).Perm (tokens.map Prod.fst)
  filled : ∀ r ∈ rows, r.2 ≠ []
  plain : ∀ r ∈ rows, '<' ∉ r.1 ∧ '>' ∉ r.1
  own : ∀ r ∈ rows, ∀ σ ∈ r.2, ∃ ts s, dget tokens σ = some ts ∧ TextOf ts s ∧ ('&' ∉ s → unescape r.1 = s)

/-- The statements of a drawing of one kind. -/
def nodesOf (ds : List Drawn) : List (Str × Str) := ds.filterMap (fun d => match d with | .node n l => some (n, l) | _ => none)
def edgesOf (ds : List Drawn) : List (Str × Str × Str) := ds.filterMap (fun d => match d with | .edge a b l => some (a, b, l) | _ => none)
def dashedOf (ds : List Drawn) : List (Str × Str) := ds.filterMap (fun d => match d with | .dashed a b => some (a, b) | _ => none)
def groupsOf (ds : List Drawn) : List (List Str) := ds.filterMap (fun d => match d with | .same l => some l | _ => none)

/-- The drawing shows the graph: each vertex has a name of its own, each vertex and each edge is drawn once, and the groups bring
together the vertices of a rank. -/
structure DrawnAs (g : VGraph) (rank : Nat → Nat) (simple : Bool) (ds : List Drawn) (name : Nat → Str) : Prop where
  names : ∀ u ∈ g.vertices, ∀ v ∈ g.vertices, name u = name v → u = v
  nodes : List.Forall₂ (fun (n : Str × Str) (p : Nat × Vertex) => n.1 = name p.1 ∧
    if simple then n.2 = (if p.2.label = [] then S "#" else p.2.label)
    else ∃ rows, ReadingRows p.2.tokens rows ∧ n.2 = fullLabel p.2.label (rank p.1) rows) (nodesOf ds) g.nodes
  edges : (edgesOf ds).Perm (g.edges.map (fun e => (name e.src, name e.tgt, e.label)))
  dashed : (dashedOf ds).Perm (g.near.map (fun e => (name e.1, name e.2)))
  groups : ∀ u ∈ g.vertices, ∀ v ∈ g.vertices, (∃ l ∈ groupsOf ds, name u ∈ l ∧ name v ∈ l) ↔ rank u = rank v

end CollateX.Spec
