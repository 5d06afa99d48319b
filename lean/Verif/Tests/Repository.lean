import Verif.Model.Collate
import Verif.Model.Display
import Verif.Model.Block
import Verif.Model.Kahn
import Verif.Model.AStarAligner
/-
The expectations of the repository's own test suite (`collatex-pythonport/tests`), evaluated in the model. These are tests of the
model, not proofs: `#guard` evaluates the expression when the module is built and fails if it is false. Each one cites its test. Tests that
are disabled in the repository (`unit_disabled`), and those of classes that are not modelled, are left out.
-/

namespace CollateX.Tests

/-- The length of a longest common subsequence. -/
def lcs : Str → Str → Nat
  | [], _ => 0
  | _ :: _, [] => 0
  | a :: as, b :: bs => if a = b then lcs as bs + 1 else max (lcs as (b :: bs)) (lcs (a :: as) bs)
termination_by a b => a.length + b.length

/-- `Levenshtein.ratio`: twice the length of a longest common subsequence, divided by the sum of the lengths (here in millionths). -/
def levRatio (a b : Str) : Nat := 2 * lcs a b * 1000000 / (a.length + b.length)

def env : Env := ⟨asciiClass, kahn, levRatio⟩

/-- Plain witnesses with their sigla. -/
def plain (ws : List (String × String)) : List WitnessData :=
  ws.map (fun p => { id := some (S p.1), content := some (S p.2) })

def collation (ws : List WitnessData) : Collation := ((addWitnesses asciiClass [] ws).toOption).getD []

def text (s : Str) : String := String.ofList s

/-- `[row.to_list_of_strings() for row in table.rows]` -/
def rowsOfTable (t : Table) : Option (List (List (Option String))) :=
  t.rows.mapM (fun r => (cellsToStrings r.cells).toOption.map (List.map (Option.map text)))

def rows (ws : List WitnessData) (o : Opts := {}) : Option (List (List (Option String))) :=
  match collateDict env ws o with
  | .ok (.table t) => rowsOfTable t
  | _ => none

/-- The cells of the printed table, horizontally. -/
def printed (ws : List WitnessData) (o : Opts := {}) : Option (List (List String)) :=
  match collateDict env ws o with
  | .ok (.table t) => (printHorizontal asciiClass t.rows).toOption.map (List.map (List.map text))
  | _ => none

/-- The way `textwrap` splits these texts (which have no hyphens): runs of white space and runs of other characters. -/
def splitRuns (s : Str) : List Str := s.splitBy (fun a b => asciiClass.space a == asciiClass.space b)

/-- The columns of the printed table, vertically. -/
def printedVertical (ws : List WitnessData) (o : Opts := {}) : Option (List (String × List String)) :=
  match collateDict env ws o with
  | .ok (.table t) =>
    match printTable asciiClass ⟨splitRuns, fun _ n => n⟩ (S "vertical") t with
    | .ok (.vertical cols) => some (cols.map (fun p => (text p.1, p.2.map text)))
    | _ => none
  | _ => none

def variants (ws : List WitnessData) : Option (List Bool) :=
  match collateDict env ws {} with
  | .ok (.table t) => some (t.columns.map Column.variant)
  | _ => none

/-- A token record of the JSON output: `t`, `_sigil`, `_token_array_position` and the rest, as a set of pairs. -/
def record (t sigil : String) (pos : Nat) (rest : TokenData := []) : TokenData :=
  [(.t, .str (S t)), (.sigil, .str (S sigil)), (.pos, .nat pos)] ++ rest

/-- Equality of dicts: the order of the keys does not matter. -/
def sameDict (a b : TokenData) : Bool := a.length == b.length && a.all (fun p => dget b p.1 == some p.2)

def sameCell : Option (List TokenData) → Option (List TokenData) → Bool
  | none, none => true
  | some a, some b => a.length == b.length && (a.zip b).all (fun p => sameDict p.1 p.2)
  | _, _ => false

def sameRows (a b : List (List (Option (List TokenData)))) : Bool :=
  a.length == b.length && (a.zip b).all (fun p => p.1.length == p.2.length && (p.1.zip p.2).all (fun q => sameCell q.1 q.2))

def jsonIs (ws : List WitnessData) (o : Opts) (table : List (List (Option (List TokenData)))) (sigla : List String) : Bool :=
  match collateDict env ws { o with output := S "json" } with
  | .ok (.json j) => sameRows j.table table && j.witnesses == sigla.map S && j.status == none
  | _ => false

def rdgText (r : Rdg) : String := "<rdg wit=\"" ++ text r.wit ++ "\">" ++ text r.text ++ "</rdg>"

/-- The XML output; the texts of these tests contain nothing to escape. -/
def xml (ws : List WitnessData) : Option String :=
  match collateDict env ws { output := S "xml" } with
  | .ok (.xml apps) =>
    some ("<root>" ++ String.join (apps.map (fun a => "<app>" ++ String.join (a.map rdgText) ++ "</app>")) ++ "</root>")
  | _ => none

def teiNodes (ws : List WitnessData) : Option (List TeiNode) :=
  match collateDict env ws { output := S "tei" } with
  | .ok (.tei ns) => some ns
  | _ => none

def teiNodeText : TeiNode → String
  | .text s => text s
  | .app rs => "<app>" ++ String.join (rs.map rdgText) ++ "</app>"

def tokenIndex (ws : List WitnessData) : Option TokenIndex := (mkTokenIndex (collation ws)).toOption

/-- Start, length, depth and number of instances of every block. -/
def blockFigures (ws : List WitnessData) : Option (List (Nat × Nat × Nat × Nat)) :=
  (tokenIndex ws).bind (fun ti => ti.blocks.mapM (fun b =>
    (b.depth ti.arr ti.SA).toOption.map (fun d => (b.start, b.length, d, b.stop + 1 - b.start))))

/-! ### test_collatex_simple.py -/

-- test_tokenize
#guard (tokenize asciiClass (S "a b c")).map text == ["a ", "b ", "c"]

/-! ### test_alignment_table_rendering.py -/

def wombat : List WitnessData :=
  plain [("A", "This very quick very quick brown wombat"), ("B", "That very quick brown koala"), ("C", "That very quick brown kangaroo")]

-- testPlainTableRendering
#guard printed wombat == some
  [["A", "This very quick", "very quick brown", "wombat"],
   ["B", "That", "very quick brown", "koala"],
   ["C", "That", "very quick brown", "kangaroo"]]

-- testPlainTableRenderingNoParallelSegmentation
#guard printed wombat { segmentation := false } == some
  [["A", "This", "very", "quick", "very", "quick", "brown", "wombat"],
   ["B", "That", "-", "-", "very", "quick", "brown", "koala"],
   ["C", "That", "-", "-", "very", "quick", "brown", "kangaroo"]]

-- testPlainTableRenderingVertical
#guard printedVertical wombat == some
  [("A", ["This very quick", "very quick brown", "wombat"]),
   ("B", ["That", "very quick brown", "koala"]),
   ("C", ["That", "very quick brown", "kangaroo"])]

-- testPlainTableRenderingVerticalNoSegmentation
#guard printedVertical wombat { segmentation := false } == some
  [("A", ["This", "very", "quick", "very", "quick", "brown", "wombat"]),
   ("B", ["That", "-", "-", "very", "quick", "brown", "koala"]),
   ("C", ["That", "-", "-", "very", "quick", "brown", "kangaroo"])]

/-- A record of a plain witness. -/
def word (sigil n t : String) (pos : Nat) : TokenData := record t sigil pos [(.n, .str (S n))]

-- testJSONAlignmentTableRendering
#guard jsonIs wombat {}
  [[some [word "A" "This" "This " 0, word "A" "very" "very " 1, word "A" "quick" "quick " 2],
    some [word "A" "very" "very " 3, word "A" "quick" "quick " 4, word "A" "brown" "brown " 5],
    some [word "A" "wombat" "wombat" 6]],
   [some [word "B" "That" "That " 8],
    some [word "B" "very" "very " 9, word "B" "quick" "quick " 10, word "B" "brown" "brown " 11],
    some [word "B" "koala" "koala" 12]],
   [some [word "C" "That" "That " 14],
    some [word "C" "very" "very " 15, word "C" "quick" "quick " 16, word "C" "brown" "brown " 17],
    some [word "C" "kangaroo" "kangaroo" 18]]]
  ["A", "B", "C"]

-- testJSONAlignmentTableRenderingNoSegmentation
#guard jsonIs wombat { segmentation := false }
  [[some [word "A" "This" "This " 0], some [word "A" "very" "very " 1], some [word "A" "quick" "quick " 2],
    some [word "A" "very" "very " 3], some [word "A" "quick" "quick " 4], some [word "A" "brown" "brown " 5],
    some [word "A" "wombat" "wombat" 6]],
   [some [word "B" "That" "That " 8], none, none,
    some [word "B" "very" "very " 9], some [word "B" "quick" "quick " 10], some [word "B" "brown" "brown " 11],
    some [word "B" "koala" "koala" 12]],
   [some [word "C" "That" "That " 14], none, none,
    some [word "C" "very" "very " 15], some [word "C" "quick" "quick " 16], some [word "C" "brown" "brown " 17],
    some [word "C" "kangaroo" "kangaroo" 18]]]
  ["A", "B", "C"]

-- testJSONAlignmentTableRenderingNoSegmentationVertical
#guard jsonIs wombat { segmentation := false, layout := S "vertical" }
  [[some [word "A" "This" "This " 0], some [word "B" "That" "That " 8], some [word "C" "That" "That " 14]],
   [some [word "A" "very" "very " 1], none, none],
   [some [word "A" "quick" "quick " 2], none, none],
   [some [word "A" "very" "very " 3], some [word "B" "very" "very " 9], some [word "C" "very" "very " 15]],
   [some [word "A" "quick" "quick " 4], some [word "B" "quick" "quick " 10], some [word "C" "quick" "quick " 16]],
   [some [word "A" "brown" "brown " 5], some [word "B" "brown" "brown " 11], some [word "C" "brown" "brown " 17]],
   [some [word "A" "wombat" "wombat" 6], some [word "B" "koala" "koala" 12], some [word "C" "kangaroo" "kangaroo" 18]]]
  ["A", "B", "C"]

def foxes : List (String × String) :=
  [("A", "The quick brown fox jumps over the dog."), ("B", "The brown fox jumps over the lazy dog.")]

-- testColumnStatusInAlignmentTable
#guard variants (plain foxes) == some [false, true, false, true, false]
#guard variants (plain (foxes ++ [("C", "The brown fox walks around the lazy dog.")])) ==
  some [false, true, false, true, false, true, false]

/-! ### test_beckett.py -/

-- testBeckett
#guard rows (plain [("1", "The same clock as when for example Magee once died."), ("2", "The same as when for example Magee once died.")]) ==
  some [[some "The same ", some "clock ", some "as when for example Magee once died."],
        [some "The same ", none, some "as when for example Magee once died."]]

/-! ### test_edit_graph_aligner.py -/

-- test_superbase_generation_multiple_short_witnesses
#guard (rows (plain [("A", "a"), ("B", "b"), ("C", "c")])).isSome

-- test_duplicated_tokens_in_witness
#guard rows (plain [("A", "a"), ("B", "b"), ("C", "c"), ("D", "a a")]) ==
  some [[none, some "a"], [some "b", none], [some "c", none], [some "a ", some "a"]]

-- test_duplicated_tokens_in_witness2
#guard teiNodes (plain [("A", "a"), ("B", "b"), ("C", "c"), ("D", "a b c a b c")]) == some
  [.app [⟨S "#D", S "a b c"⟩], .text (S " "),
   .app [⟨S "#A #D", S "a"⟩], .text (S " "),
   .app [⟨S "#B #D", S "b"⟩], .text (S " "),
   .app [⟨S "#C #D", S "c"⟩]]

-- test_1
#guard rows (plain [("A", "a"), ("B", "b"), ("C", "a b")]) == some [[some "a", none], [none, some "b"], [some "a ", some "b"]]

-- test_2
#guard rows (plain [("W1", "in the in the bleach"), ("W2", "in the in the bleach in the"), ("W3", "in the in the bleach in the")]) ==
  some [[some "in the in the bleach", none], [some "in the in the bleach ", some "in the"], [some "in the in the bleach ", some "in the"]]

-- test_rank_adjustment
#guard rows (plain [("A", "aa bb cc dd ee ff"), ("B", "aa bb ex ff"), ("C", "aa bb cc ee ff"), ("D", "aa bb ex dd ff"),
    ("E", "aaa aaa aaa aaa aaa")]) == some
  [[some "aa bb ", some "cc ", some "dd ", some "ee ", some "ff"],
   [some "aa bb ", some "ex ", none, none, some "ff"],
   [some "aa bb ", some "cc ", none, some "ee ", some "ff"],
   [some "aa bb ", some "ex ", some "dd ", none, some "ff"],
   [some "aaa aaa aaa aaa aaa", none, none, none, none]]

def hermans2 : List WitnessData := plain [("W1", "a b c d F g h i ! K ! q r s t"), ("W2", "a b c d F g h i ! q r s t")]
def hermans3 : List WitnessData := hermans2 ++ plain [("W3", "a b c d E g h i ! q r s t")]

-- test_non_overlapping_blocks_Hermans; test_suffix_edit_graph_aligner.py, …case_two_witnesses
#guard rows hermans2 == some
  [[some "a b c d F g h i ", some "! K ", some "! q r s t"], [some "a b c d F g h i ", none, some "! q r s t"]]

-- test_blocks_Hermans_case_three_witnesses; test_suffix_edit_graph_aligner.py, …case_three_witnesses
#guard rows hermans3 == some
  [[some "a b c d ", some "F ", some "g h i ", some "! K ", some "! q r s t"],
   [some "a b c d ", some "F ", some "g h i ", none, some "! q r s t"],
   [some "a b c d ", some "E ", some "g h i ", none, some "! q r s t"]]

/-! ### test_suffix_edit_graph_aligner.py -/

-- test_witness_order
#guard rows (plain [("A", "x a y"), ("B", "x b y"), ("C", "x a b y")]) == some
  [[some "x ", some "a ", none, some "y"], [some "x ", none, some "b ", some "y"], [some "x ", some "a ", some "b ", some "y"]]

/-! ### test_export_alignment_table_as_tei.py, test_export_alignment_table_as_xml.py -/

def wombats : List WitnessData :=
  plain [("A", "The quick brown wombat jumps over the industrious brown dog."), ("B", "The brown koala jumps over the lazy yellow dog."),
    ("C", "The brown koala jumps over the industrious yellow dog.")]

-- test_export_alignment_table_as_tei (the children of the root element)
#guard (teiNodes wombats).map (fun ns => String.join (ns.map teiNodeText)) == some
  ("The <app><rdg wit=\"#A\">quick</rdg></app> brown <app><rdg wit=\"#A\">wombat</rdg><rdg wit=\"#B #C\">koala</rdg></app> " ++
   "jumps over the <app><rdg wit=\"#A #C\">industrious</rdg><rdg wit=\"#B\">lazy</rdg></app> " ++
   "<app><rdg wit=\"#A\">brown</rdg><rdg wit=\"#B #C\">yellow</rdg></app> dog.")

-- test_export_alignment_table_as_tei_prettyprint (the nodes that are printed one by one)
#guard (teiNodes wombats).map (List.map teiNodeText) == some
  ["The", " ", "<app><rdg wit=\"#A\">quick</rdg></app>", " ", "brown", " ",
   "<app><rdg wit=\"#A\">wombat</rdg><rdg wit=\"#B #C\">koala</rdg></app>", " ", "jumps over the", " ",
   "<app><rdg wit=\"#A #C\">industrious</rdg><rdg wit=\"#B\">lazy</rdg></app>", " ",
   "<app><rdg wit=\"#A\">brown</rdg><rdg wit=\"#B #C\">yellow</rdg></app>", " ", "dog."]

-- test_export_alignment_table_as_xml
#guard xml (plain foxes) == some
  ("<root><app><rdg wit=\"#A\">The </rdg><rdg wit=\"#B\">The </rdg></app><app><rdg wit=\"#A\">quick </rdg></app>" ++
   "<app><rdg wit=\"#A\">brown fox jumps over the </rdg><rdg wit=\"#B\">brown fox jumps over the </rdg></app>" ++
   "<app><rdg wit=\"#B\">lazy </rdg></app><app><rdg wit=\"#A\">dog.</rdg><rdg wit=\"#B\">dog.</rdg></app></root>")

/-! ### test_near_matching.py -/

def glasses : List WitnessData :=
  plain [("A", "I bought this glass , because it matches those dinner plates"), ("B", "I bought those glasses")]

def near : Opts := { nearMatch := true, segmentation := false }

-- test_exact_matching
#guard rows glasses == some
  [[some "I bought ", some "this glass , because it matches ", some "those ", some "dinner plates"],
   [some "I bought ", none, some "those ", some "glasses"]]

-- test_near_matching
#guard (match collateDict env glasses { nearMatch := true } with | .error .segmentationError => true | _ => false)

-- test_near_matching_accidentally_correct_short
#guard printed (plain [("A", "over this dog"), ("B", "over that there dog")]) near == some
  [["A", "over", "this", "-", "dog"], ["B", "over", "that", "there", "dog"]]

-- test_near_matching_accidentally_incorrect_short
#guard printed (plain [("A", "over this dog"), ("B", "over there that dog")]) near == some
  [["A", "over", "-", "this", "dog"], ["B", "over", "there", "that", "dog"]]

-- test_near_matching_accidentally_correct_long
#guard printed (plain [("A", "The brown fox jumps over this dog."), ("B", "The brown fox jumps over that there dog.")]) near == some
  [["A", "The", "brown", "fox", "jumps", "over", "this", "-", "dog", "."],
   ["B", "The", "brown", "fox", "jumps", "over", "that", "there", "dog", "."]]

-- test_near_matching_rank_0
#guard printed (plain [("A", "this"), ("B", "there thin")]) near == some [["A", "-", "this"], ["B", "there", "thin"]]

-- test_near_matching_nonclash
#guard printed (plain [("A", "aaa bbb ccc ddd"), ("B", "aaa cce ddd"), ("C", "aaa cce ddd")]) near == some
  [["A", "aaa", "bbb", "ccc", "ddd"], ["B", "aaa", "-", "cce", "ddd"], ["C", "aaa", "-", "cce", "ddd"]]

/-! ### test_near_matching_pretokenized.py -/

def other (name value : String) : TokenData := [(.other (S name), .raw (S value))]
def token (t : String) (rest : TokenData := []) : TokenData := (.t, .str (S t)) :: rest

def pretokenized : List WitnessData :=
  [{ id := some (S "A"), tokens := some [token "I" (other "ref" "123"), token "bought" (other "adj" "True"), token "this" (other "id" "x3"), token "glass" (other "id" "x4"),
       token "," (other "type" "punct"), token "because" (other "id" "x5"), token "it" (other "id" "x6"), token "matches",
       token "those" (other "id" "x7"), token "dinner" (other "id" "x8"), token "plates" (other "id" "x9"), token "." (other "type" "punct")] },
   { id := some (S "B"), tokens := some [token "I", token "bought" (other "adj" "True"), token "those" (other "id" "abc"), token "glasses" (other "id" "xyz"),
       token "." (other "type" "punct")] }]

-- test_exact_matching
#guard rows pretokenized { segmentation := false } == some
  [[some "I", some "bought", some "this", some "glass", some ",", some "because", some "it", some "matches", some "those", some "dinner",
    some "plates", some "."],
   [some "I", some "bought", none, none, none, none, none, none, some "those", some "glasses", none, some "."]]

-- test_near_matching
#guard rows pretokenized near == some
  [[some "I", some "bought", some "this", some "glass", some ",", some "because", some "it", some "matches", some "those", some "dinner",
    some "plates", some "."],
   [some "I", some "bought", none, none, none, none, none, none, some "those", none, some "glasses", some "."]]

/-! ### test_tokenized_json.py -/

def catA : WitnessData :=
  { id := some (S "A"), tokens := some [token "A" (other "ref" "123"), token "black" (other "adj" "True"), token "cat" (other "id" "xyz")] }
def cat : TokenData := [(.n, .str (S "cat"))]
def cats : List WitnessData :=
  [catA, { id := some (S "B"), tokens := some [token "A", token "white" (other "adj" "True"), token "kitten." cat] }]
def fewer : List WitnessData := [catA, { id := some (S "B"), tokens := some [token "A", token "kitten." cat] }]
def stripy : List WitnessData :=
  [catA, { id := some (S "B"), tokens := some [token "A", token "white" (other "adj" "True"), token "stripy" (other "adj" "True"), token "kitten." cat] }]

def rowA : List (Option (List TokenData)) :=
  [some [record "A" "A" 0 (other "ref" "123")], some [record "black" "A" 1 (other "adj" "True")], some [record "cat" "A" 2 (other "id" "xyz")]]

-- testJSONOutputPretokenizedJSON
#guard jsonIs cats {}
  [rowA, [some [record "A" "B" 4], some [record "white" "B" 5 (other "adj" "True")], some [record "kitten." "B" 6 cat]]] ["A", "B"]

-- testJSONOutput_empty_cells_in_output
#guard jsonIs fewer {} [rowA, [some [record "A" "B" 4], none, some [record "kitten." "B" 5 cat]]] ["A", "B"]

-- testHTMLOutputPretokenizedJSON
#guard printed cats == some [["A", "A", "black", "cat"], ["B", "A", "white", "kitten."]]

-- testHTMLOutputVerticalLayoutPretokenizedJSON
#guard printedVertical cats == some [("A", ["A", "black", "cat"]), ("B", ["A", "white", "kitten."])]

-- testSegmentationPretokenizedJSON
#guard jsonIs stripy { segmentation := true }
  [rowA, [some [record "A" "B" 4], some [record "white" "B" 5 (other "adj" "True"), record "stripy" "B" 6 (other "adj" "True")],
    some [record "kitten." "B" 7 cat]]] ["A", "B"]

/-! ### test_witness_tokens.py -/

-- testPlainWitness
#guard (collation (plain [("A", "The quick brown fox jumped over the lazy dogs.")])).map (fun w => w.tokens.length) == [10]

-- testPretokenizedWitnessAdd
#guard (collation [{ id := some (S "A"), tokens := some [token "A" (other "ref" "123"), token "black and blue" (other "adj" "True"), token "cat" (other "id" "xyz"),
   token "bird" (other "id" "abc")] }]).map (fun w => w.tokens.length) == [4]

-- testPretokenizedWitness
#guard (match rows
  [{ id := some (S "A"), tokens := some [token "A" (other "ref" "123"), token "black" (other "adj" "True"), token "cat" (other "id" "xyz"), token "bird" (other "id" "abc")] },
   { id := some (S "B"), tokens := some [token "A", token "white" (other "adj" "True"), token "mousedog bird" (other "adj" "False")] }]
  { segmentation := false } with
  | some [a, b] => a.length == 4 && b.length == 4 && b.contains (some "mousedog bird")
  | _ => false)

/-! ### test_variant_graph.py -/

-- test_storage_of_tokens_on_variant_graph (the order of the keys of a vertex is not compared)
#guard (match collateDict env (plain [("A", "a b c"), ("B", "a d c")]) { output := S "graph" } with
  | .ok (.graph g) =>
    let shown := g.nodes.map (fun p => p.2.tokens.map (fun q => (text q.1, q.2.map (fun t => text t.str))))
    (shown.filter List.isEmpty).length == 2 && shown.length == 6 && shown.contains [("A", ["b"])] && shown.contains [("B", ["d"])] &&
    shown.any (fun v => v.contains ("A", ["a"]) && v.contains ("B", ["a"]) && v.length == 2) &&
    shown.any (fun v => v.contains ("A", ["c"]) && v.contains ("B", ["c"]) && v.length == 2)
  | _ => false)

/-! ### test_tokenindex.py -/

/-- `" ".join(str(token) for token in token_index.token_array)` -/
def tokenArray (ws : List WitnessData) : Option String :=
  (tokenIndex ws).map (fun ti => String.intercalate " " (ti.arr.map (fun t => text t.str)))

-- test_token_array_hermans_case
#guard tokenArray hermans2 == some "a b c d F g h i ! K ! q r s t $0 a b c d F g h i ! q r s t"

-- testTokenArrayMarkersWithThreeWitnesses
#guard tokenArray (plain [("W1", "interesting nice huh"), ("W2", "very nice right"), ("W3", "especially interesting")]) ==
  some "interesting nice huh $0 very nice right $1 especially interesting"

-- test_witness_ranges_hermans_case (the model has the end behind the range)
#guard ((tokenIndex hermans2).bind (fun ti => (ti.rangeOf (S "W1")).toOption)).map (fun r => (r.1, r.2)) == some (0, 15)
#guard ((tokenIndex hermans2).bind (fun ti => (ti.rangeOf (S "W2")).toOption)).map (fun r => (r.1, r.2)) == some (16, 29)

def stoekl : List WitnessData := plain [("W1", "a b c d e"), ("W2", "a e c d"), ("W3", "a d b")]

-- testCaseDanielStoekl
#guard (tokenIndex stoekl).map TokenIndex.LCP == some [0, 0, 0, 1, 1, 0, 1, 0, 2, 0, 1, 1, 0, 1]

-- testCaseDanielStoeklLCPIntervals
#guard blockFigures stoekl == some [(2, 1, 3, 3), (5, 1, 2, 2), (7, 2, 2, 2), (9, 1, 3, 3), (12, 1, 2, 2)]

/-- Start, length and number of occurrences of the blocks of an LCP array. -/
def intervals (lcp : List Nat) : Option (List (Nat × Nat × Nat)) :=
  (splitLcp lcp).toOption.map (List.map (fun b => (b.start, b.length, b.stop + 1 - b.start)))

-- test_split_lcp_intervals_ascending_descending_ascending
#guard (match intervals [0, 4, 143, 87, 1, 1, 12, 93, 93, 37] with
  | some l => [(1, 143, 2), (1, 87, 3), (0, 4, 4), (6, 93, 3), (0, 1, 10), (5, 12, 5), (6, 37, 4)].all (fun x => l.contains x)
  | none => false)

-- test_split_lcp_intervals_ascending_then_descending_LCP
#guard (match intervals [0, 10, 149, 93, 7, 1] with
  | some l => [(0, 10, 4), (1, 149, 2), (1, 93, 3), (0, 7, 5), (0, 1, 6)].all (fun x => l.contains x) && l.length == 5
  | none => false)

-- test_split_lcp_intervals_descending_LCP
#guard (match intervals [0, 20, 20, 20, 4] with
  | some l => [(0, 20, 4), (0, 4, 5)].all (fun x => l.contains x) && l.length == 2
  | none => false)

-- test_lcp_intervals_number_of_witnesses_Hermans_case
#guard ((blockFigures hermans3).bind (fun l => l[1]?)).map (fun x => x.2.2.1) == some 3

-- test_filter_potential_blocks
#guard (blockFigures (plain [("W1", "a a"), ("w2", "a")])).bind List.head? |>.map (fun x => x.2) |> (· == some (1, 2, 3))

/-! ### test_astar_edit_graph_aligner.py -/

-- test_heuristic_function_everything_equals (the model counts in halves)
#guard (let I : EditInput Token := ⟨((collation (plain [("A", "everything equal")])).map (fun w => w.tokens)).flatten,
    ((collation (plain [("B", "everything equal")])).map (fun w => w.tokens)).flatten, fun _ _ => .full⟩
  (List.range 3).map (fun y => (List.range 3).map (fun x => I.heuristic (y, x))) == [[0, 2, 4], [2, 0, 2], [4, 2, 0]])

end CollateX.Tests
