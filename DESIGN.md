# Formal model of CollateX (Python port): design

Source: `/repo/collatex-pythonport` (read as text, never run). `core_classes.py` etc. below are in
`collatex-pythonport/collatex/`.

## 1. Shape of the development

* `lean/Verif/Model/*.lean` – the model. One Lean definition per Python function or method, in the
  same order and with the same branches; every definition cites file and lines. Exceptions are values
  (`Except PyErr`). Python objects with identity (graph vertices) are natural-number ids; dicts are
  insertion-ordered association lists; sets that are only tested for membership are lists.
* `lean/Verif/Spec/*.lean` – small specifications that do not mention the model's helper functions.
* `lean/Verif/Proofs/*.lean` – lemmas.
* `lean/Verif/Props/*.lean` – the property theorems, with examples that meet their hypotheses.
* `lean/Verif/Tests/Repository.lean` – no proofs: the model evaluated (`#guard`) on the inputs and expectations of the repository's own
  tests, as evidence that the model says what the code says.

All model functions are structurally recursive or take fuel, so that the kernel can evaluate them on
concrete inputs (`decide +kernel`); where fuel is used, a theorem shows that the supplied fuel is
enough (or running out is a visible error value, never a silently truncated result).

## 2. Trusted base

* The Lean 4.33 kernel; the axioms `propext`, `Classical.choice`, `Quot.sound` (nothing else).
* That the model says what the Python code says. Points where the model abstracts:
  * **Characters**: strings are `List Char`. The regular-expression classes `\w` and `\s` and
    `str.strip` are a parameter (`CharClass`): two disjoint Boolean predicates. The theorems hold for every
    choice. (Python `str` also admits lone surrogates; those are not Lean characters.)
  * **networkx**: `DiGraph` is modelled as insertion-ordered node and edge lists. `topological_sort` is a
    parameter: any function that returns a topological order of an acyclic graph.
  * **Levenshtein.ratio** is a parameter: an arbitrary function from two strings to a linear order.
  * **Token identity**: after indexing, tokens differ in `_token_array_position`, so structural equality
    is Python identity. Two tokens that share one and the same dict object are not modelled.
  * **Serialisation** by `PrettyTable` and `pygraphviz` is not modelled: the exporters are modelled up to the table or the
    statements handed to the library. `json.dumps` (strings, integers, `None`, lists, dicts; no floats; what an opaque token field
    is written as is a parameter), `etree.tostring`, `minidom`'s `toxml` and `toprettyxml`, `csv.writer` (excel and excel-tab),
    `StringIO(newline=None)` and `textwrap.fill` *are* modelled, from the documentation and the library's source; where
    `textwrap` splits a text into chunks and breaks long words is a parameter (`WrapFn`) of which only `WrapSpec` is assumed:
    the chunks are not empty and make up the text, and a break lies within the room that is left. The readers against which these
    writers are proved (`Spec/Json`, `Spec/Xml`, the CSV reader) are part of the statements.
  * Machine integers of `array('i')` are unbounded naturals. Pickle and gzip give back what was written (C84, C91).
  * **`int()`** (range set parser): sign, ASCII digits, single underscores, ASCII white space.
  * **A\***: costs and heuristic values are integers that depend on the nodes alone; node equality is object identity.
* Not modelled at all: what `suffix_based_scorer.py`
  would do after its first call of `intersection`, where it raises (C81), the rest of `extended_suffix_array.py` (printing), `linsuffarr.py`'s command line,
  `notebook` display,
  the `Aligner`/`DecisionTree` of `experimental_astar_aligner.py` (`align` calls `search` without the required argument `control_table`,
  experimental_astar_aligner.py 296 and astar.py 11: TypeError). `ExperimentalAstarAligner.collate` is modelled with a match function in the
  place of the scorer (C118); as it stands, `collate(astar=True)` raises before it is used (C43), and the method itself raises
  AttributeError on any collation, because the scorer is given the collation in the place of the token index
  (experimental_astar_aligner.py 17 and suffix_based_scorer.py 159).

## 3. Properties

For each property: what is modelled, how it is proved. "Negation" means the claim as stated is false of the
code: a concrete witness is proved, together with the strongest version that does hold.

| id | model | proof |
|----|-------|-------|
| C01 | tokenizer, witness construction | induction over the text |
| C02 | tokenizer | induction; uniqueness by comparing first tokens |
| C03 | normalisation | induction |
| C04 | Collation, Witness, Token | case analysis, induction on the witness list |
| C05 | `_prepare_token_array` | induction on witnesses with the running counter |
| C06 | `_prepare_token_array` | induction |
| C07 | `collate` with its asserts | empty collation / empty witness: unfold. Duplicate sigla: negation (A=`a`, B=`b`, B=`a` is silently mis-collated) |
| C08 | `_suffixArrayWithTrace` (skew / DC3), fuel = length | induction on fuel; suffix order on zero-padded sequences; triples, names, merge |
| C09 | `_radixPass` | counting sort equals stable insertion by key |
| C10 | `LCP` | induction |
| C11 | `split_lcp_array_into_intervals`, blocks | stack invariant; C08, C10 |
| C12 | same | stack invariant: every (i<j, min lcp) pair covered |
| C13 | `MatchCube` | C11 + C12 + invariant of `vertex_array` |
| C14 | `fill_needleman_wunsch_table` | table cell = recursive optimum = maximum over explicit paths |
| C15 | `ScoreIterator` | parent coordinates decrease |
| C16 | aligner + merge | graph invariant |
| C17 | aligner + merge | potential (old rank, position): traceback is monotone in rank |
| C18 | merge | ghost witness paths invariant `GInv` |
| C19 | merge | `GInv` |
| C20 | `VariantGraphRanking.of` | induction over the topological order; spec is longest walk |
| C21 | same | insertion order of `byRank` |
| C22 | `join` | invariant: a join candidate still has one token per witness |
| C23 | `join` | weight of the queue (number of walks) decreases |
| C24 | `join` | invariant over processed vertices |
| C25 | `AlignmentTable` | `GInv` + ranks strictly increase along each witness path |
| C26 | `AlignmentTable` | same |
| C27 | `AlignmentTable` | same |
| C28 | everything | all `Except` steps shown to be `ok` under the invariants |
| C29 | everything | diagonal is the unique optimum |
| C30 | everything | instance |
| C31 | ranking | longest path |
| C32 | `collate` | unfold; C28 |
| C33 | `perform_near_match` | longest path vertices never move |
| C34 | `perform_near_match` | negation with three witnesses; two witnesses: partial |
| C35 | JSON exporters | list reasoning |
| C36 | CSV writer | parser specification; quoting lemma; writing commutes with replacing the line ends |
| C37 | XML exporter | sorted by siglum |
| C38 | TEI exporter | grouping by reading |
| C39 | TEI exporter | C25 + strip only removes white space |
| C40 | TEI exporter | negation (tab) ; partial: space |
| C41 | `collate` | unfold |
| C42 | token index | the second indexing writes the same values |
| C43 | `collate` | negation: both options always raise |
| C44 | `MatchCube` with filter | negation; what the filter is asked is an invariant of the alignment; it carries over to segmentation because joining keeps the tokens at the same places (C66) and to near matching because vertices keep their tokens (C33); for two witnesses without two neighbouring words in common every block has one token, and the filter is respected |
| C45 | token index | negation with a concrete witness; plain text can never collide |
| C46 | vertex constructor | negation for the empty siglum |
| C47 | `SuffixArray.find` | binary search invariant |
| C48 | RangeSet | induction; printed form parses exactly for the printable sets, with its padding; patterns with steps, signs and white space; negation for the empty set |
| C49 | `AStar.search` | parent paths; visited nodes have final costs; heap and visited lists bound the rounds |
| C50 | `VariantGraph.connect` | invariant |
| C51 | `join_vertex_and_join_candidate` | invariant of `join` |
| C52 | the aligner, `collate` | tight scores leave no vertical step; one path has all vertices (`Base`) |
| C53 | the aligner, `collate` | as C52 with rows and columns exchanged; a vertical bonus needs equal neighbours |
| C54 | `topological_sort`, `VariantGraphRanking.of` | the aligner reads only the rank of a vertex; ranks are unique |
| C55 | `perform_near_match`, `_construct_table` | the re-ranked graph keeps a critical vertex on every rank and no vertex on the ranks of start and end |
| C56 | `perform_near_match` | right-to-left invariant of near matching for two witnesses, with the maximality of each choice |
| C57 | the aligner, `collate` | simulation of two runs (`Sim`): equal match cubes as long as no rank has two vertices with one label; negation: five witnesses with twins |
| C58 | token index, the aligner, `collate` | the same simulation with equal suffix arrays and block instances |
| C59 | token index, the aligner, `collate` | negation; `_partial` without twins: the run on the first witnesses simulates the beginning of the whole run; unconditional for the first two |
| C60 | `create_table_visualization`, `textwrap.fill` | induction on chunks: each round of the wrapping loop uses up characters, lines are short and lose only blanks; negation: `-` in the text looks like an empty cell |
| C61 | `visualize_table_vertically_with_colors`, `HTML.py` | a small HTML reader is run on the document; negation: markup in the text is not escaped |
| C62 | `display_variant_graph_as_svg` up to the graphviz statements | names are the decimal numbers of the nodes; readings grouped by escaped text; negation: `&` is not escaped |
| C63 | `HTML.py`, `TableRow.__str__` | the HTML reader of C61; negation: repeated texts |
| C64 | the aligner, `collate` | a path that matches every token of the witness has the largest possible score, so the traced path matches every token; negation of "a copy stands below its original" |
| C65 | the aligner, ranking, `collate` | arrangements are paths through the edit graph; the traced path numbers the vertices of the new graph, so ranks are bounded by its length; negation: equal neighbours in the second witness |
| C66 | `collateRanked`, `join`, `rankingOf`, `mkTable` | a join keeps which tokens share a place and keeps every numbering of the vertices along the edges (`Grouped`); the ranks are the least such numbering |
| C67 | `Block.frequency`, `Block.depth`, `Block.occurrenceRanges`, `splitLcp` | every interval contains an LCP value equal to its length (`splitLcp_attained`), so the interval of all occurrences of its text is also reported; negation by four witnesses |
| C68 | `AstarEditGraphAligner`, `AstarEditGraphNode`, `Scorer.score_cell`, `Scorer.heuristic_score` | paths of the edit graph = edit scripts; the heuristic is consistent and constant on end nodes, though not admissible (`C68_heuristic_not_admissible`) |
| C69 | `_align_astar`, `newer_add_to_superbase` | flags are full matches and cover the matches of the path; negations: `C69_two_on_one`, `C69_superbase_loses` |
| C70 | `PhraseMatchDetector.detect` | the buffer is the open run (`PhraseInv`); what is found are the runs, what is returned reads as the last buffer; negation: `C70_phrases_lost` |
| C71 | `_folded_slices`, `slices`, `_strslices` with `autostep` | invariant of the generator: the pending slices read the elements seen so far; negation of printing and parsing by a set of two elements |
| C72 | `json.dumps` with `sort_keys` and `indent`, the JSON exporters | a JSON reader (tokens, then values) undoes the writer, by induction on the value |
| C73 | `etree.tostring`, `toxml`, `toprettyxml`, the XML and TEI exporters | an XML reader (tags and texts, then the tree) undoes the writers; indentation is white space text inserted into the tree; negations: `C73_control_character`, `C73_pretty_changes_text` |
| C74 | the whole of `collate` with exact and near matching, on two inputs | simulation of two runs whose tokens have the same strings and records related by a relation the filter respects; near matching: the graph, the strings shown to the ratio and the ranks are related; limit: `C74_filter_sees_fields` |
| C75 | `collate` on a dict, the JSON exporter and its text, run twice | the rows give the indexed tokens back (C25), the second run is that of C42; for texts: the reader of C72, records with permuted entries (C74), sorted keys make the texts equal; limit: `C75_near_output_differs` |
| C76 | as C25, C22 and C44 | when no two paths share an inner vertex the rank of a vertex is its position in its path (induction with the rank equation), so the row of a witness is its segments from the left; after joining every path is one vertex (`Maximal`); sharing is excluded by the strings (C24) or, for the filter, by the invariant of C44, which joining keeps |
| C77 | as C65, with and without joining | the arrangement of the table is optimal (C65), so every column with equal strings must be a shared vertex; with joining the segments of both witnesses in a column with equal strings begin at vertices of equal rank, so they were shared before; negations: `C77_repeats`, `C77_three` |
| C78 | `collate_graph`, `fill_needleman_wunsch_table`, `align_matching_tokens`, `VariantGraphRanking.of`, `AlignmentTable.__init__` | invariant: all paths share their last vertices, which are alone on their ranks; neighbouring cells differ by at most two points, so the way back takes every match of the ending; with segmentation the shared vertices are joined; negations `C78_repeats`, `C78_beginning` |
| C79 | `TranspositionDetector` (`detect`, `_add_transposition`), under Python 2.7 and 3 | Invariant of the loop: the witness indices are those of the phrases left, the graph indices the same sorted; a phrase away from its place in a sorted list crosses another; zero distances make the two lists equal. Negation: TypeError under Python 3, and more phrases reported than necessary |
| C80 | ranking, `join`, `AlignmentTable` | A vertex of positive rank has a predecessor of the rank before, on the path of some witness; vertices of neighbouring ranks on the same paths are joinable, and nothing joinable is left. Negation of the mirror image and of the claim for near matching |
| C81 | `Scorer._get_non_overlapping_repeating_blocks`, `_get_block_witness`, `_build_tokens_to_occurrences`, `prepare_witness`, `match`, `near_match` | blocks exist iff two tokens are equal (from C11 and C12 with a longest common extension); negation `C81_fails` |
| C82 | all set operations and comparisons of `RangeSet`, `copy`, the constructor | members as lists up to order and repetition; comparisons by cardinality of the sorted lists; negations `C82_python3`, `C82_constructor_loses`, `C82_two_unions`, `C82_equal_not_same_text` |
| C83 | `RangeSet.__getitem__`, `split`, `fromone`, `contiguous` | position in the sorted list = number of smaller elements; arithmetic of quotient and rest; negation `C83_python3` |
| C84 | `RangeSet.__reduce__`, `__setstate__` (current version) | from C48 and C71; negation `C84_empty` |
| C85 | the table of scores, the way back, the loop over the matches | in the rows and columns of the opening exactly the diagonal matches, so the score of a cell (y, x) there is 2·min − max and the way back goes straight to the diagonal and along it; invariant over the witnesses: the first vertices of all paths agree and are alone on their ranks; negation: a word that stands again later |
| C86 | `SuffixArray.tokenize`, `__init__` for strings, `reprString` | `str.replace` of one and two characters and `str.split` as recursive functions; induction over the division of the text; negations `C86_characters`, `C86_spaces` |
| C87 | `addFeatureSA`, `addFeature`, `_findOne`, `find` with features, `__str__` | from C47 and the range of indices that `find` returns; negations `C87_first_suffix`, `C87_arguments`, `C87_str_start`, `C87_without_lcp` |
| C88 | `MatchCube.__init__`, `EditGraphAligner.collate`, `collate` | the cubes are the same vertex by vertex, because every question is about a token of the new witness and a token already in the graph (`filteredData_indexed`) |
| C89 | `collate` with near matching and the exporters | The table of near matching is good (each row has texts, as many cells as columns), so C35-C39 apply to it; `C34_two_witnesses_partial` gives the texts of the rows; negation `C89_three_witnesses` |
| C90 | everything, from `add_plain_witness` to the output text | C45 makes the witnesses valid; C01 their text; C35, C36, C37, C72, C73 for the outputs; `Spec/PlainText` reads the texts from JSON |
| C91 | `_open`, `toFile`, `fromFile` (linsuffarr.py 62–80, 708–774) | the loaded features are the saved ones, all as features of `addFeatureSA`; the methods depend on them and the common fields; negation: `abCopy` |
| C92 | `collateTable`, `joinGraph`, `rankingOf`, `mkTable` | two texts can be cut into pieces that are alternately shared and not shared in one way only (`strips_unique`); the columns with segmentation are such pieces, and so are the runs of columns without; negation for three witnesses |
| C93 | `collateTable`, `alignStep` | C65 and counting: a best arrangement of two texts that differ in one token has one unequal column; marks from C77, segmentation from C92; negations for equal neighbours |
| C94 | `Scorer.prepare_witness`, `match` with given blocks, `Occurrence` | the contiguous slices cover the block (C48's lemma), so a prepared token knows its block; example of a full match of different words |
| C95 | `List`, `Link`/`link` (HTML.py 336–422) | cutting at the first delimiter; line reader; limits by example |
| C96 | all exporters, `printTable` | each exporter is a sequence of steps each of which fails on certain tokens; the tokens of the table are those of the witnesses (C25) |
| C97 | as C65 | a cut through an arrangement at the passage; if one word of the passage is aligned, aligning all of it is at least as good and better unless it is already aligned; if none is, the columns between are all unequal; negation for passages half as long as what they have to jump over |
| C98 | near matching with weights (`Model/NearWeights.lean`), labels of near edges | simulation of the unweighted model; invariant: the weights are the ratios; same column from C34's invariant; negation for three witnesses |
| C99 | as C85 | invariant: a vertex stands on the same place in all paths, so that its rank is its place; a row that matches anywhere matches on the diagonal, so the diagonal is the only best path; negations for moved words and for segmentation |
| C100 | as C65 | counting: at most the kept words can stand against themselves, and there are at least as many columns as words in the fuller text; negation for words left out and added |
| C101 | as C59 and C65 | the last step of the aligner as a best path through (columns of the earlier table) × (words); the ranks of the new graph are bounded by the length of the path, shared vertices are agreeing columns; negation for repeated neighbours |
| C102 | as C65, C92 and C27 | the backtrack of the score table collects the links of the short program cell by cell; ranks of the two paths step by one between links and to the maximum at a link, so the columns are those of the short program; segmentation by C92 |
| C103 | as C102, for any number of witnesses | invariant of the main loop: the graph's vertices are the nodes of the short program plus two, its paths the rows (`Tracks`); the ranks are the columns by uniqueness of longest paths, so every step of the aligner is a step of the short program with some choice among nodes of the same column and word |
| C104 | as C103, with `join` | invariant of the join loop: every vertex stands for a chain of earlier vertices, consecutive ones joinable in the earlier graph (`Chained`); when nothing can be joined any more, the chains of a path are the pieces `List.splitBy` cuts; joinable edges of the earlier graph are the glued nodes of the short program |
| C105 | as C103, with `perform_near_match` | the state of near matching of two witnesses (`TwoSt`, now with the first of the most similar vertices) gives the final rank of every vertex; by induction from the end of each text this is the column the short program finds, because the unmoved vertices between a vertex and its successor are those of the other text, one in each column (`moved_eq`); the table is read off the ranks (`shown_byRank`) |
| C106 | as C105, with filters | two witnesses: both runs start from the same graph and ranks (C54); the final rank of every vertex is the column that the program of C105 finds in rows of nodes made from the graph (`Collated.tells`, `near_two_unique`), whatever the order; tables by equal ranks are equal (`ByRank.columns_same`). Three witnesses: negation by `the the rat` / `then a` / `them cat` |
| C107 | all functions from `collate` with plain texts to the CSV and JSON outputs | C103, C104 and C105 give the rows and marks of the table as strings; the rows have all tokens of the witnesses in order (`exact_all`, `near_all`), so that the texts of the cells are the tokens dealt out in order (`row_dealt`); the readers of C36 and C72 give back these texts; tokens and words are unique by C02 (`C107_words`) |
| C108 | `collate` with exact matching | By C102 the table is that of a short program. If no word of the second text is equal to its neighbour, every cell of the table of scores grows by at most one in each direction (`aligned_super`), so an alignment through a pair of linked words is the best of the part before, the pair and the best of the part after (`aligned_through`, `collation_cut`); a run of unmarked columns is cut at its first and at its last column (`rows_cut`). For any number of witnesses the short program of C103 is cut at a node that stands in every text: the best way goes through it (`aligned_through_any`, which needs the condition only in the column of the node), so each further text is collated separately on the left and on the right, up to the numbers of the nodes (`PartOf`, `nodesFor_cut`, `cut_step`, `workOf_cut`), and columns, marks and cells carry over (`left_shown`, `right_shown`). With segmentation an unmarked column is a segment that all texts have (`Sound.around`); the table is cut on the left at its first node and on the right at its last, and the nodes that are glued together are the same on each side (`left_glued`, `left_segmented`, `right_segmented`). Disproved for texts with equal neighbours (`C108_equal_neighbours`) |
| C109 | `collate` for two witnesses, all options with exact matching | By C102 the table is that of the short program, whose score no arrangement surpasses (`aligned_ge`) and some arrangement with its links reaches (`aligned_arrangement`). An arrangement in which a word of the shorter passage agrees, or none of either, has a smaller balance than that in which the longer one agrees (`swap_unique`, `swap_bound`); for passages of the same length the last choice of the aligner decides (`linked_swap`). Common words at the beginning and at the end are cut off (`collation_prefix`, `collation_suffix`, by C108). False if the passages have words in common (`C109_common_word`) |
| C110 | `collate` with exact matching | The columns of a common beginning and of a common end are not marked (C85, C78), so the table can be cut there (C108); the words of the rows are those of the witnesses (`rows_words`), so the remaining columns are the table of the rests (`leave_front`, `leave_back`). With segmentation the first column has exactly the common words, since unmarked cells agree (C27). False if a word of the beginning comes again (`C110_repeated_opening`) or a later witness has equal neighbours (`C110_equal_neighbours`) |
| C111 | `collate` with exact matching | The matrix of a further text against the columns so far is divided by the passage (`Divides`): the best way to any cell beyond it goes through it (`Divides.through`), since leaving it out costs twice its length and saves at most the shorter of two opposite sides. The columns before it are no more than the words before it (`Sound.columns_le`). So each text is linked to the nodes of the passage of the first (`workOf_passage`), the columns are not marked, and the table is cut there (C108). With segmentation the passage is in one segment, the same in all rows (`Sound.segment_of`). False for a passage of half the length (`C111_short`) |
| C112 | `collate` of two witnesses with exact matching, no segmentation | For full arrangements the weights and twice the balance of C65 add up to the number of words (`sum_balance`), so a best arrangement is a cheapest edit script with prices 3, 3 and 4. Symmetry, reversal and triangle by swapping, reversing and composing arrangements (`arrangement_trans`). The triangle fails with equal neighbours (`C112_repeats`); the table itself is not mirrored (`C112_not_mirrored`) |
| C113 | `MatchCoordinate`, `MatchCube.has_match`, `get_match`, `Block.__hash__`, `Block.__eq__` | A dictionary as a table of hash values (`HashTable`, Model/Hashed.lean): lookup only in the place of the key, hash values compared before `__eq__`. The other modules compare keys as values; `C113_cube` says that this makes no difference for matches. Blocks only with equal padding and `autostep` (`C113_padding`, `C113_autostep`) |
| C114 | `collate` of two witnesses with exact matching | An edit script (`Spec.Edited`) is an arrangement with known balance; the best arrangement of C65 has at least this balance, and the numbers of agreeing and other columns are bounded by the number of words (`balance_counts`). The bounds are not those of the edit script itself (`C114_more_columns`, `C114_missed`); equal neighbours break them (`C114_repeats`) |
| C115 | `EditGraphAligner.collate` for one more witness | The graph of the earlier witnesses is part of the new one (C59), so its ranks are lower bounds; the steps of the alignment give the upper bound (`further_core`). `Spec.wordColumns` lists the columns in which a row has something. With segmentation (`Props/WiderSegmented.lean`) the short program of C104 is used: a further text cuts the segments finer (`splitBy_finer`), and the columns are the least numbers that grow along the texts (`column_least`); `Spec.wordPlaces` gives the column of each word |
| C116 | as C101 and C115 | An edit script from an earlier witness (`Spec.Copied`) gives a placing below the table of the earlier witnesses (`Spec.Copied.placing`); C101 bounds its gain, C115 the number of columns. The bound is reached (`C116_missed`); equal neighbours break it (`C116_repeats`) |
| C117 | marks of C27, C57 and the places of C46 | `Spec.agreed` reads the unmarked columns of a row; `Collated.agreed_eq` shows that these are the tokens that share their place with a token of every witness, which segmentation does not change; for a further witness the graph of the earlier ones is part of the new one (`further_core`) |
| C118 | `ExperimentalAstarAligner.collate` with the match function of the scorer as a parameter (`starCollate`) | invariant `StarInv`: some numbering of the vertices increases along the edges and along the superbase; a new witness gets numbers between those of the columns of its next matches (`walkM_sorted`), so that both the graph and the new superbase stay in order; negations: failure, cycle |
| C119 | `performNearMatch`, `rankingOf`, `collate` | loop invariant of `nearVertices`: the state is the initial one (`performNearMatch_still`), or there is a near edge, or the edge of a vertex that can move is still to come (`performNearMatch_moves`); in the table the next cell of a row belongs to the next vertex of the path |
| C120 | `Collation.create_from_json` (`createFromJson`, with `json.load` as a parameter), `create_from_dict`, `Witness.__init__` on JSON values | `DocumentOf` says which witnesses a value describes; equal runs of the two loops up to the order of entries (`Alike`); the reader is that of C72; collation by `perm_run` (C75). Not modelled: a token `null` (in the code an empty token without data), and that a dict without text fails before a later item that is no dict |

## 4. Disagreements between the code and what a user would expect

Proved as negations (theorem names in parentheses); the positive theorem carries the suffix `_partial`.

1. **Properties filter** (C44): the filter is called with the first token of the graph vertex (`edit_graph_aligner.py` 84),
   not with the token of each earlier witness.
2. **Reserved strings** (C45): a token whose normalised form is `$0`, `$1`, ... is indistinguishable from the witness
   separators of the token array. Plain-text input cannot produce such a token.
3. **Empty siglum** (C46): the vertex constructor drops the tokens of a witness whose siglum is `''`.
4. **Input checks** (C07): no witness raises IndexError, an empty witness AssertionError, a witness of 10^9 or more tokens
   AssertionError; duplicate sigla are sometimes silently mis-collated.
5. **Options** (C43): `astar=True` always raises TypeError; `detect_transpositions=True` raises AttributeError as soon as
   there are two witnesses.
6. **Near matching** (C34): with three witnesses a vertex can be moved past its own successor, into a column in which the
   witness already has a token; that token is lost from the table (`C34_three_witnesses`). Two witnesses are safe, and no
   number of witnesses makes it raise (C33).
7. **TEI** (C40): the test whether a reading ends in white space compares with the raw strings `\u0009` and `\000a`
   (`core_functions.py` 152), so a reading that ends in a tab or a line feed gets no separating blank and words run together
   (`C40_words_run_together`).
8. **TEI sigla** (C38): a siglum that contains a blank makes the `wit` attribute ambiguous (`C38_blank_in_siglum`).
9. **Search in one-token texts** (C47): the suffix array of a one-token text is `[1]`, so `find` misses the only token
   (`C47_single_token`).
10. **Range sets** (C48): the printed form of the empty set cannot be parsed (`C48_empty_set`), nor that of a set with an element
    above `1e100` or with 10^9 consecutive elements (`C48_parse_iff`).
11. **Added repetitions** (C53): a vertical step within a column of matches scores a point, so a witness that repeats a token can
    pull the alignment away from the right one: `the cat` against `the cat the the the` leaves `cat` unaligned (`C53_repeats`).
12. **Spelling** (C57): if two vertices with the same reading share a rank, the one that is recorded last in the match cube wins, and the order of recording is the alphabetical order of the suffixes. So replacing `lay` by `sat` throughout changes the alignment (`C57_spelling_can_matter`); for two witnesses this cannot happen (`C57_two_witnesses`).
13. **A witness that shares no word with the others can change how the others are aligned** (C59): the intervals of the LCP array that are still open at its end are reported outer first, all others inner first (`split_lcp_array_into_intervals`). A word sorted behind all others changes which intervals these are, hence the order of the block instances, hence which of two vertices with the same reading on one rank is entered last into the match cube.
14. **Printed tables** (C60): a token `-` is printed like an empty cell (`C60_hyphen_or_gap`).
15. **HTML** (C61): texts and sigla are not escaped in the coloured table; `x <b> y` is shown as `x  y` (`C61_markup_not_escaped`).
16. **SVG** (C62): `<` and `>` are escaped in readings but `&` is not, so the readings `&lt;` and `<` are shown as one (`C62_ampersand`). The label of the vertex is not escaped at all.
17. **Column styles** (C63): the column of a cell is found with `list.index`, so a text that occurs twice in a row gets the style of its first column (`C63_repeated_text`). CollateX itself uses no column styles.
18. **A copy of a witness need not be aligned with it** (C64): with the witnesses `a`, `a a b a`, `a`, the third is aligned with the last token of the second, and the first with the second token of the second (`C64_copy_elsewhere`). What does hold is that it adds no reading (`C64_nothing_new`).
19. **Two witnesses** (C65): the table of `the cat` and `the cat the the the` has one agreeing column and five others although two and three are possible, because a step down within a column of matches gains a point (`C65_repeats`). Even without such repetitions the number of agreeing columns itself is not maximal: a common token at opposite ends of two witnesses of five tokens is not aligned (`C65_not_most_agreements`).
20. **Blocks that miss occurrences** (C67): when a longer interval is closed inside a shorter one of the current LCP value, `split_lcp_array_into_intervals` opens a second interval of that value, which begins with the longer one and misses the occurrences before it. Its frequency and depth are too small. (`C67_not_all_occurrences`)
21. **`get_all_occurrences_as_ranges` misses the last occurrence** (C67): line 52 of block.py runs over `range(self.start, self.end)`, although `end` is inclusive. Nothing calls the method. (`C67_ranges_miss_last`)
22. **A\* aligner** (C68, C69): a cell keeps the flag of a match that was considered but not taken, so two tokens of the second text can be aligned with one token of the first (`C69_two_on_one`), and the superbase drops the last tokens of both texts if they do not match (`C69_superbase_loses`); one empty text raises IndexError (`C68_empty_text`).
23. **Phrase matches** (C70): the phrase matches are lazy `zip` objects over two lists that are cleared and reused, so under Python 3 all of them read as the last phrase (`C70_phrases_lost`). `TranspositionDetector.detect` raises TypeError for any phrase (`sorted` has no `cmp` under Python 3). Neither class is used.
24. **Range sets with autostep** (C71): two elements 10^9 apart are printed as one range with a step, which the parser refuses, although the set has only two elements and is printed and parsed back without `autostep` (`C71_too_far`).
25. **XML and TEI texts** (C73): a control character in a token, such as a form feed between pages, makes the XML output ill-formed (`C73_control_character`); the documents are ill-formed exactly when a siglum or token has a character that XML does not allow (`C73_xml_wellformed`, `C73_tei_wellformed`). With `indent`, `toprettyxml` puts white space around texts: `(a)` reads back with blanks inside the parentheses (`C73_pretty_changes_text`). A carriage return reads back as a line feed.
26. **Near matching is not repeatable from its output** (C75): a token missing from the near-matching table (C34) is missing from the JSON output, which is then not an equivalent input (`C75_near_output_differs`).
27. **A column marked variant need not differ** (C77): for the two witnesses `1 2 3 4 5 6 d u s` and `s s s s s s d s s` column 7 has `d` in both rows and is marked variant, because the two `d` are two vertices that happen to have the same rank (`C77_repeats`).
28. **With three witnesses a column marked variant need not differ even if no word is repeated** (C77): for `d e f`, `q r d`, `x y d e f` column 3 has `d` in all three rows and is marked variant (`C77_three`). With the default options the same happens for `e b c f`, `d f e g`, `c g a f`, `f d g`: column 2 has `f` in all four rows and is marked variant (`C77_segmented`).
29. **Common endings** (C78): if a later witness has a word of the ending twice in a row, the ending need not be aligned: `z` against `z z y z` puts the word of the first witness into the column of the second `z`, because a step down within a column of matches scores a point. A common beginning is not always aligned even without repetitions: `a b a` against `a` (`C78_beginning`).
30. **Transposed phrases** (C79): `sorted(..., cmp=...)` is a TypeError under Python 3 for any phrase (`C79_python3`). Under Python 2.7 all four phrases of `c d a b` against `a x b y c z d` are reported, though two are in order (`C79_not_minimal`).
31. **The block scorer** (C81): `prepare_witness` raises AttributeError as soon as two tokens of the witnesses have equal strings (`C81_raises_iff`), because a Python `range` has no `intersection`; otherwise no two tokens match (`C81_never_matches`).
32. **Range sets under Python 3** (C82, C83): `union`, `symmetric_difference` (AttributeError) and `split` (TypeError) never work; the author has repaired `intersection` and `difference` only.
33. **`RangeSet(r)`** (C82) forgets the `autostep` of `r`: line 118 overwrites what line 113 has copied.
34. **Pickling** (C84): an empty range set cannot be unpickled or deep-copied, because the constructor does not accept the empty string.
35. **A common beginning need not be aligned** (C85): if one witness has a word of the beginning again, the other witnesses may be aligned with the later occurrence, because the trace-back starts at the end and prefers the first match it meets (`a` against `a b a`).
36. **Units of the suffix array** (C86): `UNIT_CHARACTER` calls `decode` on a string, an AttributeError under Python 3 (`C86_characters`). CollateX uses `UNIT_BYTE` with a list of strings.
37. **Features of the suffix array** (C87): the method of a feature of `addFeature` returns the default value for a pattern that is found at index 0, which counts as `False` (`C87_first_suffix`); the arguments `pos` and `iSA` of its docstring raise AttributeError (`C87_arguments`); `__str__` with a start shows the features of other suffixes (`C87_str_start`); with `noLCPs=True` every search raises AttributeError (`C87_without_lcp`). CollateX uses the feature LCP only.
38. **Files of the suffix array** (C91): `toFile` and `fromFile` raise TypeError for every name without `.gz` (text files are opened for pickled bytes); a feature of `addFeature` answers differently after loading for a pattern that is found at index 0.
39. **A word added or replaced next to equal words** (C93): `b b` against `b b a` is aligned with the first `b` of the second witness alone and `a` against the last `b`; `a x` against `a a` has three columns. As in C65, a step down within a column of matches gains a point, so that both equal words go with one word of the first witness.
40. **The block scorer, given its blocks** (C94): the block of the repeated text `a b` makes `a` of one witness match `b` of the other (`C94_different_words`).
41. **Lists in HTML** (C95): `start=0` is not shown; two lists made with the same dictionary of attributes share the start (`C95_limits`).
42. **Common words are not always aligned** (C97): `a b x` and `x c d` share only `x`, and it is not aligned (`C97_short`); nor is the seventh word of thirteen that both texts have in the same place (`C97_short_same_place`). A passage must be more than half as long as the shorter of what stands before it in one text and after it in the other.
43. **Dashed lines across columns** (C98): with three witnesses the vertex to which another was moved may be moved later, so that the line joins different columns (`C98_three`).
44. **Segmentation and places** (C99): `a b`, `c d` and `c e` have nothing moved, but with segmentation the first row has `a b` in one cell and a gap below `d` and `e` (`C99_segmented`).
45. **Kept words that are not aligned** (C100): `x c d` is `a b x` with two words left out and two added, and `x` is not aligned (`C100_left_out_and_added`).
46. **A badly placed witness** (C101): below `the cat`, the words of `the cat the the the` could be placed with two agreements and three other columns, but the table has one agreement and five others (`C101_repeats`).
47. **The result of near matching depends on the topological order** (C106): for the three witnesses `the the rat`, `then a`, `them cat` the order that considers the vertices as they were added puts `a` in the third column beside `rat`; another correct topological order leaves it in the second. The code reads the candidates from the ranking as it is when a vertex is reached, so that it matters which of two unrelated vertices comes first. The table can thus change with the version of networkx. With two witnesses it cannot.
48. **A table cannot be cut if words are repeated** (C108): with `a b a` and `b a a` the words `b` share an unmarked column and so do the last words; without the last words, `a b` and `b a` are aligned at the word `a` instead.
49. **Equal blocks that are not found** (C113): the hash value of a block is that of its printed range set, its equality that of the elements. Range sets with different padding or `autostep` can be equal and are printed differently, so that a block is not found under an equal one.
50. **A further witness can make the table narrower** (C115): four witnesses have ten columns, these and a fifth with a single word of its own have eight (`C115_narrower`; with segmentation seven and six, `C115_segmented_narrower`), for the reason given under C59.
51. **A further witness can make the others agree on more words** (C117): five witnesses agree on no word, the same five and a sixth (`~ E`) all agree on `E` (`C117_more`), for the reason given under C59.
52. **The A\* collation fails on short witnesses** (C118): a superbase loses the last tokens that do not match, so that after `a` and `b` it is empty and the third witness raises IndexError (`C118_fails`).
53. **The A\* collation puts two tokens of a witness on one vertex** (C118): `a` and then `a a` gives a vertex with an edge to itself (`C118_cycle`).
54. **A word that was last once is not found again** (C118): `a b`, `a c`, `a b` gives two vertices for the two `b` (`C118_lost`).
55. **`create_from_json` does not accept a string** (C120): the comment in core_classes.py 32 says "a string or a file", but `json.load` calls `read` (`C120_rejected`: AttributeError).

Observed while modelling, not stated as properties:

56. The LCP intervals contain redundant entries; this is harmless.
57. CSV: `\r` inside a token becomes `\n`; a missing cell and an empty string cannot be told apart.
58. JSON output contains the internal fields `_sigil` and `_token_array_position`; the CSV, XML and TEI exporters raise
    KeyError for a token without `t`.
59. The heuristic of the A* aligner adds the length of witness b twice (the aligner cannot be reached through `collate`).
