{"id": "C01", "title": "Plain-text tokenisation is lossless", "statement": "For any text given to add_plain_witness, concatenating the 't' values of the resulting tokens in order gives back exactly the text, and no token is empty.", "quantifier": "every string (any length, any characters), every classification of characters into word / space characters", "why_tests_cant": "Infinitely many strings; an example-based test only shows the strings it lists.", "anchors": ["collatex-pythonport/collatex/core_classes.py::WordPunctuationTokenizer.tokenize", "collatex-pythonport/collatex/core_classes.py::Witness.__init__"]}
{"id": "C02", "title": "Token boundaries are canonical", "statement": "Every token is either a run of word characters followed by white space, or a run of non-word characters; a boundary never falls inside a word or between a word and the white space that follows it; and the tokenisation is the only split of the text with these properties.", "quantifier": "every string, and every alternative split of it", "why_tests_cant": "Uniqueness ranges over all alternative splits of all strings.", "anchors": ["collatex-pythonport/collatex/core_classes.py::WordPunctuationTokenizer.tokenize"]}
{"id": "C03", "title": "Normalised form strips exactly trailing white space", "statement": "For a plain-text witness each token's 'n' is its 't' without trailing white space: 't' = 'n' + white space, and 'n' does not end in white space; so the non-space characters of the text all survive, in order, in the normalised forms.", "quantifier": "every string", "why_tests_cant": "Ranges over all strings.", "anchors": ["collatex-pythonport/collatex/core_classes.py::Witness.__init__", "collatex-pythonport/collatex/core_classes.py::Token.__init__"]}
{"id": "C04", "title": "Adding witnesses is all-or-nothing and order preserving", "statement": "Adding a witness either raises and leaves the collation unchanged, or appends exactly one witness at the end; it raises TokenError exactly when some pre-tokenised token has neither 'n' nor 't'; a token's matching string is its 'n' if it has one, otherwise its 't'. Building a collation from a dict equals adding its witnesses one by one, and the limit argument keeps a prefix.", "quantifier": "every collation history and every witness record", "why_tests_cant": "Ranges over all histories of additions and all records.", "anchors": ["collatex-pythonport/collatex/core_classes.py::Collation.add_witness", "collatex-pythonport/collatex/core_classes.py::Collation.create_from_dict", "collatex-pythonport/collatex/core_classes.py::Token.__init__", "collatex-pythonport/collatex/core_classes.py::Witness.__init__"]}
{"id": "C05", "title": "Token index: every token has its own position, witnesses occupy disjoint consecutive ranges", "statement": "After indexing, the global token sequence is witness 1, a separator, witness 2, a separator, ..., last witness; the range reported for a witness is exactly the positions of its tokens; ranges of different witnesses are disjoint and in witness order; each token carries its own position and its witness's siglum.", "quantifier": "every list of non-empty witnesses with distinct sigla", "why_tests_cant": "Ranges over every number of witnesses and every length.", "anchors": ["collatex-pythonport/collatex/tokenindex.py::TokenIndex._prepare_token_array", "collatex-pythonport/collatex/tokenindex.py::TokenIndex.get_range_for_witness"]}
{"id": "C06", "title": "Collating only adds two bookkeeping keys to the input tokens", "statement": "The only change collate makes to the user's token records is setting '_sigil' and '_token_array_position'; all other keys and values, the number of tokens and their order are unchanged.", "quantifier": "every collation", "why_tests_cant": "Absence of any other effect on every input cannot be shown by examples.", "anchors": ["collatex-pythonport/collatex/tokenindex.py::TokenIndex._prepare_token_array", "collatex-pythonport/collatex/core_functions.py::collate"]}
{"id": "C07", "title": "Degenerate collations are rejected, never silently mis-collated", "statement": "collate raises for a collation without witnesses, for one that contains a witness without tokens, and for one in which two witnesses have the same siglum; it never returns a table for them.", "quantifier": "every such collation, whatever the other witnesses are", "why_tests_cant": "The other witnesses are arbitrary.", "anchors": ["collatex-pythonport/collatex/tokenindex.py::TokenIndex._prepare_token_array", "collatex-pythonport/collatex/edit_graph_aligner.py::EditGraphAligner.collate", "collatex-pythonport/ClusterShell/RangeSet.py::RangeSet.add_range"]}
{"id": "C08", "title": "The suffix array is correct", "statement": "The suffix array built over any sequence of at least two tokens is a permutation of all positions that lists the suffixes in strictly increasing lexicographic order.", "quantifier": "every token sequence of length at least two over every alphabet size", "why_tests_cant": "The recursive linear-time construction has position-dependent cases (length mod 3, recursion depth) that need every length.", "anchors": ["collatex-pythonport/collatex/linsuffarr.py::_suffixArrayWithTrace", "collatex-pythonport/collatex/linsuffarr.py::_radixPass", "collatex-pythonport/collatex/linsuffarr.py::SuffixArray.__init__"]}
{"id": "C09", "title": "Radix pass is a stable sort", "statement": "A radix pass over the first n entries writes to the output those entries stably sorted by key, and leaves the rest of the output unaltered.", "quantifier": "all arrays, keys within the bound, all n", "why_tests_cant": "Stability and the untouched tail must hold for every array.", "anchors": ["collatex-pythonport/collatex/linsuffarr.py::_radixPass"]}
{"id": "C10", "title": "The LCP array is correct", "statement": "For i > 0 the i-th LCP value is the length of the longest common prefix of the (i-1)-th and i-th suffix in suffix-array order; the 0-th is 0.", "quantifier": "every token sequence", "why_tests_cant": "Every sequence.", "anchors": ["collatex-pythonport/collatex/linsuffarr.py::LCP", "collatex-pythonport/collatex/linsuffarr.py::_longestCommonPrefix"]}
{"id": "C11", "title": "Blocks are real repetitions that stay inside one witness", "statement": "Every block reported by the token index has positive length and at least two occurrences; all its occurrences are the same sequence of token strings; and no occurrence crosses the end of a witness, provided no input token string equals a separator.", "quantifier": "every collation without separator collisions", "why_tests_cant": "Ranges over every collation.", "anchors": ["collatex-pythonport/collatex/tokenindex.py::TokenIndex.split_lcp_array_into_intervals", "collatex-pythonport/collatex/block.py::Block.get_all_instances"]}
{"id": "C12", "title": "Blocks are complete", "statement": "For any two different positions whose suffixes share exactly L > 0 leading tokens there is a reported block of length L that has both positions among its occurrences.", "quantifier": "every LCP array / token sequence and every pair of positions", "why_tests_cant": "All pairs of positions in all sequences.", "anchors": ["collatex-pythonport/collatex/tokenindex.py::TokenIndex.split_lcp_array_into_intervals"]}
{"id": "C13", "title": "A witness token can match a rank exactly when an equal token is there", "statement": "Without a properties filter, the aligner considers the k-th token of the new witness and a rank of the graph a match if and only if some earlier token with the same normalised string sits on a vertex of that rank.", "quantifier": "every collation, every witness, every token and every rank", "why_tests_cant": "All collations; goes through the suffix array and the LCP intervals.", "anchors": ["collatex-pythonport/collatex/edit_graph_aligner.py::MatchCube.__init__", "collatex-pythonport/collatex/edit_graph_aligner.py::MatchCube.has_match"]}
{"id": "C14", "title": "The alignment score is optimal", "statement": "The score in the last cell of the edit table is the maximum, over all monotone paths through the table, of the path's score (+1 for a match, -1 otherwise, a vertical step scoring +1 only if it goes from a match to a match), and the traced-back alignment attains it.", "quantifier": "every table size and every match relation, every path", "why_tests_cant": "All tables and all (exponentially many) paths.", "anchors": ["collatex-pythonport/collatex/edit_graph_aligner.py::EditGraphAligner.fill_needleman_wunsch_table", "collatex-pythonport/collatex/edit_graph_aligner.py::EditGraphAligner.calculate_from_upper", "collatex-pythonport/collatex/edit_graph_aligner.py::Scorer"]}
{"id": "C15", "title": "Trace-back terminates at the origin along a monotone path", "statement": "Following the back pointers from the last cell always ends at the origin after at most rows + columns steps; each step goes to a neighbouring cell up, left or up-left.", "quantifier": "every table", "why_tests_cant": "Every table size and content.", "anchors": ["collatex-pythonport/collatex/edit_graph_aligner.py::ScoreIterator.__next__", "collatex-pythonport/collatex/edit_graph_aligner.py::Score.__init__"]}
{"id": "C16", "title": "Only equal tokens are aligned", "statement": "All tokens that collate puts on one graph vertex (exact matching, no segmentation) have the same normalised string, equal to the label of the vertex.", "quantifier": "every collation", "why_tests_cant": "Every collation; depends on the entire pipeline.", "anchors": ["collatex-pythonport/collatex/edit_graph_aligner.py::EditGraphAligner.align_matching_tokens", "collatex-pythonport/collatex/core_classes.py::CollationAlgorithm.merge"]}
{"id": "C17", "title": "The variant graph stays acyclic", "statement": "After collating any number of witnesses the variant graph has no directed cycle; every vertex is reachable from the start vertex and reaches the end vertex.", "quantifier": "every collation, every number of witnesses", "why_tests_cant": "A cycle could arise from the interplay of any number of merges.", "anchors": ["collatex-pythonport/collatex/core_classes.py::CollationAlgorithm.merge", "collatex-pythonport/collatex/edit_graph_aligner.py::EditGraphAligner.collate"]}
{"id": "C18", "title": "Every witness can be read off the graph", "statement": "For every witness the graph contains a path from start to end along edges labelled with its siglum whose vertices carry, for that siglum, exactly its tokens in order; every edge belongs to such a path.", "quantifier": "every collation, every witness", "why_tests_cant": "Every collation and every witness, after any number of later merges.", "anchors": ["collatex-pythonport/collatex/core_classes.py::CollationAlgorithm.merge", "collatex-pythonport/collatex/core_classes.py::VariantGraph.connect"]}
{"id": "C19", "title": "Every token is in the graph exactly once", "statement": "Every token of every witness is on exactly one vertex; a vertex (before segmentation) carries at most one token per witness; every vertex other than start and end carries at least one token.", "quantifier": "every collation", "why_tests_cant": "Every collation.", "anchors": ["collatex-pythonport/collatex/core_classes.py::CollationAlgorithm.merge", "collatex-pythonport/collatex/core_classes.py::VariantGraphVertex.add_token"]}
{"id": "C20", "title": "Ranks are longest-path distances, whatever the traversal order", "statement": "The rank given to a vertex is the length of a longest path from the start vertex to it: every edge strictly increases the rank, and the ranks do not depend on which topological order the graph library returns.", "quantifier": "every acyclic variant graph, every topological order", "why_tests_cant": "All graphs and all topological orders.", "anchors": ["collatex-pythonport/collatex/core_classes.py::VariantGraphRanking.of"]}
{"id": "C21", "title": "Columns appear in text order", "statement": "The ranking's ranks are listed in increasing order without holes from 0 to the rank of the end vertex, whatever topological order was used; so columns of the table are in increasing rank order.", "quantifier": "every acyclic variant graph, every topological order", "why_tests_cant": "Relies on dictionary insertion order under every traversal.", "anchors": ["collatex-pythonport/collatex/core_classes.py::VariantGraphRanking.of", "collatex-pythonport/collatex/core_classes.py::AlignmentTable._construct_table"]}
{"id": "C22", "title": "Segmentation preserves every witness", "statement": "Joining parallel segments never loses, duplicates or reorders a token: every witness reads the same before and after.", "quantifier": "every variant graph produced by collating", "why_tests_cant": "The code keeps only the first token of a joined vertex; that this loses nothing depends on the order of all joins.", "anchors": ["collatex-pythonport/collatex/core_classes.py::join", "collatex-pythonport/collatex/core_classes.py::join_vertex_and_join_candidate"]}
{"id": "C23", "title": "Segmentation terminates", "statement": "join always terminates on graphs produced by collating.", "quantifier": "every variant graph produced by collating", "why_tests_cant": "Termination for every graph; the code comment reports running out of memory.", "anchors": ["collatex-pythonport/collatex/core_classes.py::join"]}
{"id": "C24", "title": "Segmentation is maximal and uniform", "statement": "After join no vertex other than start has a single successor that is not the end and has no other predecessor; and all witnesses on one vertex carry the same sequence of normalised strings.", "quantifier": "every variant graph produced by collating", "why_tests_cant": "Every graph.", "anchors": ["collatex-pythonport/collatex/core_classes.py::join"]}
{"id": "C25", "title": "The alignment table is lossless", "statement": "For every witness, concatenating the non-empty cells of its row from left to right gives exactly the witness's tokens in order (exact matching, with or without segmentation).", "quantifier": "every valid collation, every witness", "why_tests_cant": "Every collation; a cell collision anywhere would silently drop tokens.", "anchors": ["collatex-pythonport/collatex/core_classes.py::AlignmentTable._construct_table", "collatex-pythonport/collatex/core_functions.py::collate"]}
{"id": "C26", "title": "The alignment table is rectangular and labelled", "statement": "The table has one row per witness, in witness order, headed by its siglum; every row has exactly one cell per column; a cell is either empty (None) or a non-empty token list; every column has at least one non-empty cell.", "quantifier": "every valid collation", "why_tests_cant": "Every collation.", "anchors": ["collatex-pythonport/collatex/core_classes.py::AlignmentTable._construct_table"]}
{"id": "C27", "title": "A column not marked variant really agrees", "statement": "If a column is not marked variant then every witness has tokens in it and all of them have the same sequence of normalised strings; if some witness has no token in it, the column is marked variant.", "quantifier": "every valid collation, every column", "why_tests_cant": "Every collation and column.", "anchors": ["collatex-pythonport/collatex/core_classes.py::AlignmentTable._construct_table", "collatex-pythonport/collatex/core_classes.py::Column"]}
{"id": "C28", "title": "Collating valid input always succeeds", "statement": "For every collation with at least one witness, no empty witness, distinct sigla and no token string equal to a separator, collate (exact matching) returns a table and raises nothing.", "quantifier": "every valid collation", "why_tests_cant": "Absence of exceptions (KeyError, IndexError, null vertex) on every input.", "anchors": ["collatex-pythonport/collatex/core_functions.py::collate", "collatex-pythonport/collatex/edit_graph_aligner.py::MatchCube.__init__", "collatex-pythonport/collatex/edit_graph_aligner.py::EditGraphAligner.collate"]}
{"id": "C29", "title": "Identical witnesses align completely", "statement": "If all witnesses have the same sequence of normalised strings, no column of the table is marked variant; without segmentation there is one column per token, with segmentation exactly one column.", "quantifier": "every token sequence, every number of witnesses", "why_tests_cant": "Every text and every number of witnesses.", "anchors": ["collatex-pythonport/collatex/core_functions.py::collate", "collatex-pythonport/collatex/edit_graph_aligner.py::EditGraphAligner.fill_needleman_wunsch_table"]}
{"id": "C30", "title": "A single witness is reproduced", "statement": "Collating one witness gives a one-row table: one column per token without segmentation, one column with all tokens with segmentation, never variant.", "quantifier": "every witness", "why_tests_cant": "Every witness.", "anchors": ["collatex-pythonport/collatex/core_functions.py::collate"]}
{"id": "C31", "title": "Column count bounds", "statement": "Without segmentation the number of columns is at least the number of tokens of the longest witness and at most the total number of tokens.", "quantifier": "every valid collation", "why_tests_cant": "Every collation.", "anchors": ["collatex-pythonport/collatex/core_classes.py::AlignmentTable._construct_table", "collatex-pythonport/collatex/core_classes.py::VariantGraphRanking.of"]}
{"id": "C32", "title": "Near matching with segmentation is refused", "statement": "collate with near_match=True and segmentation=True raises SegmentationError for every valid collation and every output format.", "quantifier": "every valid collation", "why_tests_cant": "Every collation and output.", "anchors": ["collatex-pythonport/collatex/core_functions.py::collate"]}
{"id": "C33", "title": "Near matching never raises and keeps ranks consistent", "statement": "collate with near_match=True and segmentation=False raises nothing on valid input; after it each vertex has exactly one rank and is listed under exactly that rank, and the vertices of a longest start-end path keep their rank.", "quantifier": "every valid collation, every string similarity function", "why_tests_cant": "Every collation and similarity function, any sequence of moves.", "anchors": ["collatex-pythonport/collatex/near_matching.py::perform_near_match", "collatex-pythonport/collatex/core_classes.py::VariantGraphRanking.of"]}
{"id": "C34", "title": "Near matching is lossless", "statement": "With near_match=True the alignment table still contains every token of every witness, in order.", "quantifier": "every valid collation, every string similarity function", "why_tests_cant": "A vertex moved past one of its successors loses or reorders tokens only for particular graph shapes.", "anchors": ["collatex-pythonport/collatex/near_matching.py::perform_near_match", "collatex-pythonport/collatex/core_classes.py::AlignmentTable._construct_table"]}
{"id": "C35", "title": "JSON output carries the whole table", "statement": "The horizontal JSON output lists for each witness and column null for an empty cell and otherwise the token records in order, with the sigla in row order; the vertical JSON output is its transpose with the same sigla.", "quantifier": "every alignment table with at least one column", "why_tests_cant": "Every table.", "anchors": ["collatex-pythonport/collatex/core_functions.py::export_alignment_table_as_json", "collatex-pythonport/collatex/core_functions.py::export_alignment_table_as_vertical_json"]}
{"id": "C36", "title": "CSV output can be read back", "statement": "Parsing the CSV or TSV output with a standard CSV reader gives, for each witness, its siglum followed by the text of each cell (empty for a missing cell); carriage returns and CR-LF pairs in the texts are read back as line feeds, everything else unchanged.", "quantifier": "every table", "why_tests_cant": "Quoting must be right for every combination of delimiters, quotes and line breaks.", "anchors": ["collatex-pythonport/collatex/display_module.py::display_alignment_table_as_csv", "collatex-pythonport/collatex/core_classes.py::Row.to_list_of_strings"]}
{"id": "C37", "title": "XML output lists each reading once, sorted by siglum", "statement": "The XML output has one app per column, each with exactly one rdg for every witness that has tokens in the column, in increasing order of siglum, whose text is the concatenation of the 't' values.", "quantifier": "every table", "why_tests_cant": "Every table.", "anchors": ["collatex-pythonport/collatex/core_functions.py::export_alignment_table_as_xml"]}
{"id": "C38", "title": "TEI output partitions the witnesses of each column", "statement": "In the TEI output a column is plain text exactly when all witnesses have it with the same reading (up to surrounding white space); otherwise it is an app whose rdg elements have distinct readings, and every witness that has tokens in the column is listed in exactly one rdg, the one with its reading.", "quantifier": "every table with at least one witness whose sigla contain no blank", "why_tests_cant": "Every table.", "anchors": ["collatex-pythonport/collatex/core_functions.py::export_alignment_table_as_tei"]}
{"id": "C39", "title": "TEI output preserves each witness's text up to white space", "statement": "Reading the TEI output for one witness (plain text plus the rdg elements that list it) gives, after removing white space, the witness's text after removing white space.", "quantifier": "every valid collation whose sigla contain no blank, every witness", "why_tests_cant": "Every collation and witness.", "anchors": ["collatex-pythonport/collatex/core_functions.py::export_alignment_table_as_tei"]}
{"id": "C40", "title": "TEI output keeps words apart", "statement": "In the TEI output a white-space separator follows every column in which some reading ends in a space, tab or line feed.", "quantifier": "every table", "why_tests_cant": "Every table and every white-space character.", "anchors": ["collatex-pythonport/collatex/core_functions.py::export_alignment_table_as_tei"]}
{"id": "C41", "title": "Unknown output formats are rejected", "statement": "collate with an output name other than the documented ones raises an exception and never returns.", "quantifier": "every string that is not a documented format, every valid collation", "why_tests_cant": "All strings.", "anchors": ["collatex-pythonport/collatex/core_functions.py::collate"]}
{"id": "C42", "title": "collate is repeatable", "statement": "Calling collate again on the same Collation object, with the same options, returns an equal result.", "quantifier": "every collation and every option set", "why_tests_cant": "Every collation; depends on collate's side effects on the tokens.", "anchors": ["collatex-pythonport/collatex/core_functions.py::collate", "collatex-pythonport/collatex/tokenindex.py::TokenIndex._prepare_token_array"]}
{"id": "C43", "title": "Documented options work", "statement": "collate with astar=True, or with detect_transpositions=True, returns an alignment like the default options do.", "quantifier": "every valid collation", "why_tests_cant": "Every collation.", "anchors": ["collatex-pythonport/collatex/core_functions.py::collate", "collatex-pythonport/collatex/experimental_astar_aligner.py::ExperimentalAstarAligner.collate", "collatex-pythonport/collatex/transposition_handling.py::TranspositionDetection.detect"]}
{"id": "C44", "title": "The properties filter is respected", "statement": "With a properties_filter, two tokens of different witnesses are put on one vertex by a match only if the filter accepts their user-visible data.", "quantifier": "every collation and every filter", "why_tests_cant": "Every collation and every filter function.", "anchors": ["collatex-pythonport/collatex/edit_graph_aligner.py::MatchCube.__init__", "collatex-pythonport/collatex/edit_graph_aligner.py::MatchCube.filtered_token_data"]}
{"id": "C45", "title": "Separators never collide with input", "statement": "No input token can be mistaken for the internal separator between witnesses.", "quantifier": "every collation, including pre-tokenised input", "why_tests_cant": "Every token string.", "anchors": ["collatex-pythonport/collatex/tokenindex.py::TokenIndex._prepare_token_array", "collatex-pythonport/collatex/edit_graph_aligner.py::MatchCube.__init__"]}
{"id": "C46", "title": "Any siglum works", "statement": "The alignment table is lossless for every choice of distinct sigla.", "quantifier": "every collation with distinct sigla", "why_tests_cant": "Every siglum.", "anchors": ["collatex-pythonport/collatex/core_classes.py::VariantGraphVertex.__init__"]}
{"id": "C47", "title": "Substring search is exact", "statement": "SuffixArray.find returns exactly the positions at which the given token sequence occurs.", "quantifier": "every text and every pattern", "why_tests_cant": "Every text and pattern; binary search boundaries.", "anchors": ["collatex-pythonport/collatex/linsuffarr.py::SuffixArray.find", "collatex-pythonport/collatex/linsuffarr.py::SuffixArray._findOne"]}
{"id": "C48", "title": "Range sets print and parse back", "statement": "Parsing the printed form of a range set gives an equal range set with the same padding where it shows; a comma separated list of patterns a, a-b and a-b/step is read as the union of the ranges; the contiguous ranges of a set are non-empty, maximal, in increasing order and cover it exactly.", "quantifier": "every finite set of non-negative integers", "why_tests_cant": "Every set.", "anchors": ["collatex-pythonport/ClusterShell/RangeSet.py::RangeSet._parse", "collatex-pythonport/ClusterShell/RangeSet.py::RangeSet.__str__", "collatex-pythonport/ClusterShell/RangeSet.py::RangeSet._contiguous_slices"]}
{"id": "C49", "title": "Best-first search returns a real path", "statement": "If the A* search returns a path then it is a path of parent/child steps from the start node to an end node; with a consistent heuristic it has least cost.", "quantifier": "every finite search graph, every cost function and every consistent heuristic", "why_tests_cant": "All graphs, costs and heuristics.", "anchors": ["collatex-pythonport/collatex/astar.py::AStar.search", "collatex-pythonport/collatex/astar.py::AStar.reconstruct_path"]}
{"id": "C50", "title": "Edge labels list the witnesses of an edge", "statement": "The label of a graph edge is the comma-separated list, in collation order, of the sigla of exactly those witnesses whose reading passes along the edge.", "quantifier": "every collation, every edge", "why_tests_cant": "Every collation.", "anchors": ["collatex-pythonport/collatex/core_classes.py::VariantGraph.connect", "collatex-pythonport/collatex/core_classes.py::join"]}
{"id": "C51", "title": "A segment's label is its text", "statement": "The label of a graph vertex other than start and end is the normalised strings of the tokens any of its witnesses has there, in order, with a blank before each string but the first unless that string begins with a non-word character.", "quantifier": "every collation, with or without segmentation, every vertex", "why_tests_cant": "Every collation and every sequence of joins.", "anchors": ["collatex-pythonport/collatex/core_classes.py::join_vertex_and_join_candidate", "collatex-pythonport/collatex/core_classes.py::CollationAlgorithm.merge"]}
{"id": "C52", "title": "Omissions never disturb the alignment", "statement": "If every witness only leaves out tokens of the first witness, each of its tokens is aligned with an equal token of the first one: the first row has a cell in every column, every other row has the same strings there or nothing, and a column is marked variant exactly where something is left out.", "quantifier": "every witness list in which the strings of each witness are a subsequence of those of the first, repeated tokens included, with or without segmentation", "why_tests_cant": "The omissions can be anywhere and repeated tokens make many embeddings possible; the claim depends on the scores of all paths through every edit table.", "anchors": ["collatex-pythonport/collatex/edit_graph_aligner.py::EditGraphAligner.calculate_from_upper", "collatex-pythonport/collatex/edit_graph_aligner.py::EditGraphAligner.align_matching_tokens"]}
{"id": "C53", "title": "Additions never disturb the alignment", "statement": "If every witness only adds tokens to the witness before it, each token of the earlier witnesses is aligned with an equal token of the last one: the last row has a cell in every column and every other row has the same strings there or nothing.", "quantifier": "every witness list in which the strings of each witness are a subsequence of those of the next", "why_tests_cant": "The additions can be anywhere; the failing cases need a token repeated several times in a row.", "anchors": ["collatex-pythonport/collatex/edit_graph_aligner.py::EditGraphAligner.calculate_from_upper", "collatex-pythonport/collatex/edit_graph_aligner.py::EditGraphAligner.align_matching_tokens"]}
{"id": "C54", "title": "The topological order is irrelevant", "statement": "With exact matching, whichever topological order networkx returns, the collation has the same graph, the same rank of every vertex, the same rows and the same variant columns.", "quantifier": "every two topological sort functions, every collation", "why_tests_cant": "A test runs one implementation of networkx; other versions may return other orders.", "anchors": ["collatex-pythonport/collatex/core_classes.py::VariantGraphRanking.of", "collatex-pythonport/collatex/edit_graph_aligner.py::EditGraphAligner.collate"]}
{"id": "C55", "title": "Near matching invents and duplicates nothing", "statement": "With near matching and any number of witnesses, the table has as many columns as without it, no column is empty, every row has a cell for each column, a filled cell holds exactly one token of the witness of its row, no token stands in two cells, and in a column not marked variant every witness has a token and all have the same string.", "quantifier": "every similarity function, every topological order, every collation without segmentation", "why_tests_cant": "Near matching moves vertices between ranks one at a time, each move depending on the earlier ones; it does lose tokens for three witnesses (C34), so it has to be shown that it cannot also duplicate or misattribute them.", "anchors": ["collatex-pythonport/collatex/near_matching.py::perform_near_match", "collatex-pythonport/collatex/near_matching.py::witnesses_on_path", "collatex-pythonport/collatex/core_classes.py::AlignmentTable._construct_table"]}
{"id": "C56", "title": "Near matching chooses the most similar column", "statement": "For at most two witnesses, a vertex that is immediately followed by its successor stays in its column; any other vertex is put in the column of a vertex that did not move, between its original column and its successor, and no vertex there that did not move is more similar to it, nor is one in an earlier column as similar.", "quantifier": "every similarity function, every topological order, every collation of at most two witnesses without segmentation", "why_tests_cant": "The candidates depend on the ranks after all moves further to the right, so the choice cannot be read off single calls.", "anchors": ["collatex-pythonport/collatex/near_matching.py::perform_near_match", "collatex-pythonport/collatex/near_matching.py::flatten"]}
{"id": "C57", "title": "The alignment depends only on which tokens are equal, not on how they are spelt", "statement": "If two inputs have as many witnesses with as many tokens, and the same pairs of tokens have equal normalised forms in both, then exact matching puts the tokens with the same numbers into the same cells and marks the same columns as variant.", "quantifier": "for all inputs that can be collated and all consistent respellings of their tokens", "why_tests_cant": "A consistent respelling can change the sorting order of all suffixes and hence the order in which matches are recorded; the statement compares infinitely many pairs of inputs, and the known failure needs five witnesses and two equal readings side by side.", "anchors": ["collatex-pythonport/collatex/edit_graph_aligner.py::MatchCube.__init__", "collatex-pythonport/collatex/tokenindex.py::TokenIndex.split_lcp_array_into_intervals", "collatex-pythonport/collatex/edit_graph_aligner.py::EditGraphAligner.collate"]}
{"id": "C58", "title": "Sigla are only labels", "statement": "Inputs with the same tokens under different (non-empty, distinct) sigla give tables with the same columns and the tokens with the same numbers in the same cells, whatever the sigla are and with any properties filter.", "quantifier": "for all inputs that can be collated, all renamings of the witnesses and all filters", "why_tests_cant": "Sigla are keys of the dictionaries of ranges, of block instances and of the tokens of each vertex; a dependence on their order or spelling would show up only for particular names.", "anchors": ["collatex-pythonport/collatex/tokenindex.py::TokenIndex._prepare_token_array", "collatex-pythonport/collatex/tokenindex.py::TokenIndex.construct_witness_to_block_instances_map", "collatex-pythonport/collatex/edit_graph_aligner.py::MatchCube.__init__", "collatex-pythonport/collatex/core_classes.py::AlignmentTable._construct_table"]}
{"id": "C59", "title": "Witnesses added at the end do not change how the earlier ones are aligned", "statement": "With exact matching, two tokens of the first n witnesses are put on one vertex of the variant graph of all witnesses exactly when they are put on one vertex of the variant graph of the first n witnesses alone.", "quantifier": "for all inputs that can be collated, all n and all pairs of tokens of the first n witnesses", "why_tests_cant": "The suffix array and the list of blocks are built from all witnesses at once, so every added witness rearranges them; the statement compares infinitely many pairs of inputs, and the known failure needs five witnesses with repeated words in a particular sorting order.", "anchors": ["collatex-pythonport/collatex/tokenindex.py::TokenIndex.split_lcp_array_into_intervals", "collatex-pythonport/collatex/edit_graph_aligner.py::MatchCube.__init__", "collatex-pythonport/collatex/edit_graph_aligner.py::EditGraphAligner.collate"]}
{"id": "C60", "title": "The printed table shows the text of every witness", "statement": "The alignment table can be printed in the horizontal and the vertical layout and in no other. The horizontal table has one row per witness, the vertical one column per witness, headed by the siglum; each cell shows the text of the witness in that column (without white space at the end; in the vertical layout in lines of at most 20 characters that have lost nothing but white space), and '-' exactly where the witness has no tokens, so that the other cells make up the text of the witness up to white space.", "quantifier": "for all inputs that can be collated with exact matching, all segmentation settings, all character classes and all ways of splitting texts into chunks", "why_tests_cant": "Wrapping depends on the lengths of words relative to the line and on every kind of white space; the confusion of a '-' in the text with an empty cell appears only for particular texts.", "anchors": ["collatex-pythonport/collatex/core_classes.py::create_table_visualization", "collatex-pythonport/collatex/core_classes.py::visualizeTableHorizontal", "collatex-pythonport/collatex/core_classes.py::visualizeTableVertically", "collatex-pythonport/collatex/core_classes.py::AlignmentTable.__str__"]}
{"id": "C61", "title": "The coloured HTML table shows the alignment", "statement": "For output='html2' the document has a header row with the sigla and one row per column of the alignment table; each row has one cell per witness, coloured red if the column is variant and cyan if not, with the text of the witness in that column, wrapped, '-' if it has none.", "quantifier": "for all inputs that can be collated with exact matching", "why_tests_cant": "The claim is about what is seen when an arbitrary document is read as HTML; it fails for texts that contain markup characters, and exchanged colours were not noticed by any other property.", "anchors": ["collatex-pythonport/collatex/display_module.py::visualize_table_vertically_with_colors", "collatex-pythonport/collatex/HTML.py::TableCell.__str__", "collatex-pythonport/collatex/HTML.py::TableRow.__str__", "collatex-pythonport/collatex/HTML.py::Table.__str__"]}
{"id": "C62", "title": "The drawing shows the variant graph", "statement": "For output='svg' and 'svg_simple' every vertex is drawn as a node with a name of its own, every edge is drawn once with its label, every near-match edge once, and two vertices are put into one group exactly if they have the same rank. A node shows the label of the vertex; in the full drawing also its rank and its readings, such that each witness of the vertex is listed once, beside its own reading, and different readings are shown differently.", "quantifier": "for all inputs that can be collated, with exact or near matching", "why_tests_cant": "The readings are grouped by an escaped string, so the property depends on which characters a reading may contain; tests compare a few drawings only.", "anchors": ["collatex-pythonport/collatex/display_module.py::display_variant_graph_as_svg", "collatex-pythonport/collatex/near_matching.py::perform_near_match", "collatex-pythonport/collatex/core_functions.py::collate"]}
{"id": "C63", "title": "Column attributes of HTML tables apply to their own column", "statement": "In a table with column styles, alignments, widths, characters or vertical alignments, the i-th cell of every row has the i-th value, unless the cell has a value of its own.", "quantifier": "for all rows of texts and cells and all lists of column attributes", "why_tests_cant": "The column is looked up by the text of the cell, so it is wrong only for rows in which a text is repeated.", "anchors": ["collatex-pythonport/collatex/HTML.py::TableRow.__str__", "collatex-pythonport/collatex/HTML.py::Table.__str__"]}
{"id": "C64", "title": "A witness without new readings adds nothing", "statement": "If the tokens of a witness are, in the same order, among those of one earlier witness, then wherever it has a cell in the table, a row above it has the same strings in that column.", "quantifier": "for all valid lists of witnesses, with and without segmentation, exact matching without properties filter", "why_tests_cant": "The aligner compares the witness with all readings of each rank at once, and the score also rewards other paths; that the best path through an arbitrary graph never drops such a token needs the optimality of the score.", "anchors": ["collatex-pythonport/collatex/edit_graph_aligner.py::EditGraphAligner.fill_needleman_wunsch_table", "collatex-pythonport/collatex/edit_graph_aligner.py::EditGraphAligner.align_matching_tokens", "collatex-pythonport/collatex/core_functions.py::collate"]}
{"id": "C65", "title": "Two witnesses are arranged as well as possible", "statement": "The unsegmented table of two witnesses is an arrangement of their tokens in two rows, and no other arrangement has a larger number of columns with equal strings less the number of other columns.", "quantifier": "for all pairs of valid witnesses, exact matching without segmentation and properties filter", "why_tests_cant": "It compares the table with every possible arrangement of two texts of any length; tests compare with one expected table.", "anchors": ["collatex-pythonport/collatex/edit_graph_aligner.py::EditGraphAligner.fill_needleman_wunsch_table", "collatex-pythonport/collatex/edit_graph_aligner.py::EditGraphAligner.calculate_from_upper", "collatex-pythonport/collatex/edit_graph_aligner.py::Scorer.score", "collatex-pythonport/collatex/core_classes.py::VariantGraphRanking.of"]}
{"id": "C66", "title": "Segmentation only groups", "statement": "Collating the same witnesses with and without segmentation gives graphs in which the same tokens stand at the same place of a vertex, and the table with segmentation has no more columns than the one without.", "quantifier": "for all valid lists of witnesses, exact matching, any properties filter", "why_tests_cant": "It relates two runs on arbitrary witnesses, and every pair of tokens in their graphs; tests look at one table at a time.", "anchors": ["collatex-pythonport/collatex/core_classes.py::join", "collatex-pythonport/collatex/core_functions.py::collate", "collatex-pythonport/collatex/core_classes.py::AlignmentTable"]}
{"id": "C67", "title": "Frequency and depth of a block", "statement": "The frequency of every block of the token index is the number of times its text occurs in the witnesses, its depth is the number of witnesses that contain it, and its list of ranges has one range for each occurrence.", "quantifier": "for all valid lists of witnesses and every block of their index", "why_tests_cant": "The tests count a few blocks of chosen witnesses; that the counting misses occurrences depends on the shape of the LCP array, and shows only when a longer block is closed inside a shorter one.", "anchors": ["collatex-pythonport/collatex/block.py::Block.get_frequency", "collatex-pythonport/collatex/block.py::Block.get_depth", "collatex-pythonport/collatex/block.py::Block.get_all_instances", "collatex-pythonport/collatex/block.py::Block.get_all_occurrences_as_ranges", "collatex-pythonport/collatex/tokenindex.py::TokenIndex.split_lcp_array_into_intervals"]}
{"id": "C68", "title": "The A* aligner finds a cheapest edit script", "statement": "The search of the A* aligner between two non-empty texts ends, and its path is an edit script (omissions, additions, replacements) from the first to the second such that no edit script has lower cost, with the costs of the scorer.", "quantifier": "for all pairs of non-empty token lists and every match function", "why_tests_cant": "It compares the path with every edit script between texts of any length; the one test of this aligner looks at a heuristic table.", "anchors": ["collatex-pythonport/collatex/experimental_astar_aligner.py::AstarEditGraphAligner.create_childnodes", "collatex-pythonport/collatex/experimental_astar_aligner.py::AstarEditGraphAligner.heuristic", "collatex-pythonport/collatex/experimental_astar_aligner.py::AstarEditGraphNode.move_cost", "collatex-pythonport/collatex/suffix_based_scorer.py::Scorer.score_cell", "collatex-pythonport/collatex/suffix_based_scorer.py::Scorer.heuristic_score", "collatex-pythonport/collatex/astar.py::AStar.search"]}
{"id": "C69", "title": "The alignment of the A* aligner", "statement": "The alignment made from the path relates each token of the second text to at most one token of the first and conversely, relates only matching tokens, does not cross, contains every match of the path, and the new superbase contains all tokens of both texts in order.", "quantifier": "for all pairs of non-empty token lists and every match function", "why_tests_cant": "Which cells are flagged as matches depends on the order in which the search looks at them; a test sees a few texts, in which the flags happen to agree with the path.", "anchors": ["collatex-pythonport/collatex/experimental_astar_aligner.py::ExperimentalAstarAligner._align_astar", "collatex-pythonport/collatex/experimental_astar_aligner.py::ExperimentalAstarAligner.newer_add_to_superbase", "collatex-pythonport/collatex/suffix_based_scorer.py::Scorer.score_cell"]}
{"id": "C70", "title": "Phrase matches are the maximal runs", "statement": "The phrase match detector returns, in order, the maximal runs of tokens that are neighbours in the witness and whose vertices are neighbours in the base by a lone edge.", "quantifier": "for all graphs, token lists and links of tokens to vertices", "why_tests_cant": "There is no test of the class; that the returned phrases share one buffer shows only with more than one phrase, and only when they are read after the loop.", "anchors": ["collatex-pythonport/collatex/transposition_handling.py::PhraseMatchDetector.detect", "collatex-pythonport/collatex/transposition_handling.py::PhraseMatchDetector._add_new_phrase_match_and_clear_buffer"]}
{"id": "C71", "title": "Folding of range sets with autostep", "statement": "With autostep, the slices of a range set are disjoint and cover the set exactly; every slice with a step greater than one is an arithmetic progression of at least autostep elements; a progression that long is one slice; the printed form parses back to the same set.", "quantifier": "for every finite set of non-negative integers and every autostep", "why_tests_cant": "The generator carries a pending range, a step and an unfinished progression from round to round; which branch runs depends on the gaps of the whole set.", "anchors": ["collatex-pythonport/ClusterShell/RangeSet.py::RangeSet._folded_slices", "collatex-pythonport/ClusterShell/RangeSet.py::RangeSet.slices", "collatex-pythonport/ClusterShell/RangeSet.py::RangeSet._strslices"]}
{"id": "C72", "title": "The JSON text can be read back", "statement": "The text of the JSON output, with or without indentation, is a JSON text that reads back as the sigla, the cells of the table (null or the records of the tokens in order, each with sorted keys) and, if asked for, the status of the columns.", "quantifier": "for all tables, token fields and indentations", "why_tests_cant": "Tests compare the output for a few tables with plain words; that every character of every token is escaped so that a reader finds the same text again is a claim about all texts.", "anchors": ["collatex-pythonport/collatex/core_functions.py::export_alignment_table_as_json", "collatex-pythonport/collatex/core_functions.py::export_alignment_table_as_vertical_json"]}
{"id": "C73", "title": "The XML and TEI texts can be read back", "statement": "The texts of the XML and TEI outputs are well-formed documents for all witnesses, and reading them gives the readings of the output exactly; in particular each witness's text can be read from them.", "quantifier": "for all witnesses, with and without indentation", "why_tests_cant": "Tests compare the output for a few texts without markup characters; well-formedness and escaping are claims about all texts.", "anchors": ["collatex-pythonport/collatex/core_functions.py::export_alignment_table_as_xml", "collatex-pythonport/collatex/core_functions.py::export_alignment_table_as_tei"]}
{"id": "C74", "title": "The alignment depends on the normalised strings alone", "statement": "Without a filter, the layout of the alignment table is determined by the normalised strings of the tokens: two inputs with the same normalised strings have tables in which the same tokens stand in the same cells with the same variant flags, whatever the sigla, the written forms and the other fields of the tokens. With a filter the same holds if the filter treats the records of corresponding tokens alike. It also holds for near matching.", "quantifier": "for all valid witnesses with non-empty sigla, with and without segmentation; for near matching, all similarity functions", "why_tests_cant": "That nothing but the normalised string enters the alignment is a claim about all pairs of inputs with the same normalised strings.", "anchors": ["collatex-pythonport/collatex/core_functions.py::collate", "collatex-pythonport/collatex/core_classes.py::Token.__init__", "collatex-pythonport/collatex/edit_graph_aligner.py::MatchCube.filtered_token_data", "collatex-pythonport/collatex/near_matching.py::perform_near_match"]}
{"id": "C75", "title": "The JSON output can be collated again", "statement": "The rows of the JSON output, given as pre-tokenised witnesses under their sigla, are collated exactly as the input they came from: every output format and every set of options gives the same result. If the JSON text is written, read back and collated again, the new text is identical, although the reader sees the entries of the token records in another order.", "quantifier": "for all inputs with valid witnesses and non-empty sigla, exact matching with and without segmentation; for texts, all indentations and all filters that do not depend on the order of dict entries", "why_tests_cant": "A fixed point of the whole program under re-reading its own output is a statement about all inputs; a test can compare only a few round trips.", "anchors": ["collatex-pythonport/collatex/core_functions.py::collate", "collatex-pythonport/collatex/core_functions.py::export_alignment_table_as_json", "collatex-pythonport/collatex/core_classes.py::Witness.__init__", "collatex-pythonport/collatex/tokenindex.py::TokenIndex.prepare"]}
{"id": "C76", "title": "Witnesses with nothing in common stay apart", "statement": "Collating valid witnesses of which no two have a token with the same string (exact matching, sigla other than the empty string) never aligns anything. Without segmentation the alignment table has exactly as many columns as the longest witness has tokens, and the row of every witness has its tokens one by one from the left, one per cell, followed by empty cells. With segmentation the table has exactly one column, and every cell is the whole witness. Every column is marked variant, unless there is only one witness, in which case none is. A properties filter that accepts no pair gives the same tables for any valid witnesses, whatever they have in common.", "quantifier": "all valid witness lists (any number of witnesses, any lengths, any other fields) and options with exact matching, with and without segmentation, any topological order of the graph", "why_tests_cant": "The claim fixes the whole table for infinitely many inputs; tests only look at a few small ones, and no test in the repository looks at witnesses without anything in common or at a filter that refuses everything.", "anchors": ["collatex-pythonport/collatex/core_classes.py::AlignmentTable.__init__", "collatex-pythonport/collatex/core_classes.py::join", "collatex-pythonport/collatex/core_classes.py::VariantGraphRanking.of", "collatex-pythonport/collatex/edit_graph_aligner.py::EditGraphAligner.collate"]}
{"id": "C77", "title": "A column marked variant really differs", "statement": "A column of the alignment table is marked variant exactly if the rows differ in it, that is, unless all rows have tokens in it with the same normalised strings. One direction (a column not marked variant has the same strings in all rows) is C27; the other is false in general: with two witnesses a column with the same word in both rows can be marked variant if the second witness repeats a word, and with three witnesses even if no witness has a word twice. It holds for two witnesses of which the second has no equal neighbours.", "quantifier": "all pairs of valid witnesses with non-empty sigla of which the second has no two equal neighbouring tokens, exact matching, no properties filter, with and without segmentation, any topological order", "why_tests_cant": "The mark is computed from the graph (one vertex per rank), not from the strings, so that the two agree depends on the alignment table's optimum for all inputs; the counterexamples are nine words long or need three witnesses.", "anchors": ["collatex-pythonport/collatex/core_classes.py::AlignmentTable.__init__", "collatex-pythonport/collatex/core_classes.py::VariantGraphRanking.of", "collatex-pythonport/collatex/edit_graph_aligner.py::EditGraphAligner.collate"]}
{"id": "C78", "title": "A common ending is aligned", "statement": "If all witnesses end with the same words, these words stand aligned in the last columns of the table: without segmentation the last columns have them in every row, one word in each cell, and are not marked variant; with segmentation the last column is not marked variant and every cell in it ends with them. False if a later witness has a word of the ending twice in a row: `z` against `z z y z` aligns the only word of the first witness with the second word of the other. It holds for all witnesses otherwise, whatever stands before the ending, even if its words stand elsewhere too. A common beginning, in contrast, is not always aligned: `a b a` against `a` puts the second witness in the last column.", "quantifier": "all non-empty lists of valid witnesses with non-empty sigla, all common endings of which no witness after the first has a word twice in a row, exact matching, no properties filter, with and without segmentation, any topological order", "why_tests_cant": "The claim is about all endings of any length and all texts before them; it follows from bounds between neighbouring cells of the score table together with the tie-breaking rule, and from the ranks of vertices shared by all paths.", "anchors": ["collatex-pythonport/collatex/edit_graph_aligner.py::EditGraphAligner.align_matching_tokens", "collatex-pythonport/collatex/edit_graph_aligner.py::EditGraphAligner.collate", "collatex-pythonport/collatex/core_classes.py::AlignmentTable.__init__"]}
{"id": "C79", "title": "Transposed phrases are found", "statement": "TranspositionDetector divides the phrase matches of a witness: the phrases that it does not report stand in the witness in the order of the graph, and every phrase that it reports crosses another one, that is, stands before it in one order and after it in the other. Nothing is reported exactly if the phrases are in the order of the graph, and of two phrases that have changed places the shorter one is reported. False under Python 3, where any phrase at all is a TypeError; the theorems hold under Python 2.7. Even there the phrases reported need not be as few as possible: of `c d a b` against `a x b y c z d` all four phrases are reported although two would do.", "quantifier": "all lists of phrases that begin at ranked vertices, no two with the same first token and vertex; in particular all phrases that PhraseMatchDetector finds for distinct tokens", "why_tests_cant": "The loop removes phrases until all distances are zero; that it ends without an error and leaves the rest in order for every permutation needs an invariant, not examples.", "anchors": ["collatex-pythonport/collatex/transposition_handling.py::TranspositionDetector.detect", "collatex-pythonport/collatex/transposition_handling.py::TranspositionDetector._add_transposition"]}
{"id": "C80", "title": "Neighbouring columns: no needless gaps, no needless cuts", "statement": "Whenever a witness has tokens in a column other than the first, some witness with the same strings in this column also has tokens in the column before: the table has no gap before a reading that nobody needs. With segmentation, two vertices of neighbouring ranks never carry tokens of exactly the same witnesses, so of two neighbouring columns at least one is marked variant: a segment never ends where all its witnesses go on together. (There is no such guarantee for the column after a reading, and none with near matching, which moves readings to the right.)", "quantifier": "all non-empty lists of valid witnesses with non-empty sigla, exact matching, any properties filter, with and without segmentation, any topological order, all columns", "why_tests_cant": "The claim is about every pair of neighbouring columns of every table; it rests on ranks being longest-path lengths and on the join leaving nothing to join.", "anchors": ["collatex-pythonport/collatex/core_classes.py::VariantGraphRanking.of", "collatex-pythonport/collatex/core_classes.py::join", "collatex-pythonport/collatex/core_classes.py::AlignmentTable.__init__"]}
{"id": "C81", "title": "The block scorer of the A* aligner recognises equal tokens", "statement": "Given the token index of valid witnesses, the scorer of suffix_based_scorer.py can prepare every witness, and its match function reports a match for two tokens of different witnesses exactly if their strings are equal. (In the code this fails: the scorer raises AttributeError as soon as any two tokens are equal, and never reports a match otherwise.)", "quantifier": "all valid witness lists, all prepared witnesses, all pairs of tokens, all filters", "why_tests_cant": "That the scorer fails for every input with two equal tokens, and that no sequence of prepared witnesses leads to a match, are statements about all inputs; the tests that would show single failures are switched off.", "anchors": ["collatex-pythonport/collatex/suffix_based_scorer.py::Scorer._get_non_overlapping_repeating_blocks", "collatex-pythonport/collatex/suffix_based_scorer.py::Scorer.prepare_witness", "collatex-pythonport/collatex/suffix_based_scorer.py::Scorer.match", "collatex-pythonport/collatex/block.py::Block._as_range"]}
{"id": "C82", "title": "Range sets behave as sets", "statement": "Union, intersection, difference, symmetric difference (as new sets and in place), update, add, remove, discard and clear change the members exactly as for sets, keep padding and autostep of the left operand, and the comparisons are equality, inclusion and strict inclusion of the members. (In the code union and symmetric difference raise AttributeError under Python 3, and RangeSet(r) forgets the autostep of r.)", "quantifier": "all range sets with any padding and autostep, all numbers", "why_tests_cant": "The laws speak about all pairs of sets and all attributes; comparisons mix sizes and inclusion, so that only a proof excludes a wrong answer for some pair.", "anchors": ["collatex-pythonport/ClusterShell/RangeSet.py::RangeSet.union", "collatex-pythonport/ClusterShell/RangeSet.py::RangeSet.intersection", "collatex-pythonport/ClusterShell/RangeSet.py::RangeSet.difference", "collatex-pythonport/ClusterShell/RangeSet.py::RangeSet.symmetric_difference", "collatex-pythonport/ClusterShell/RangeSet.py::RangeSet.update", "collatex-pythonport/ClusterShell/RangeSet.py::RangeSet.copy", "collatex-pythonport/ClusterShell/RangeSet.py::RangeSet.__eq__", "collatex-pythonport/ClusterShell/RangeSet.py::RangeSet.__lt__", "collatex-pythonport/ClusterShell/RangeSet.py::RangeSet.__init__"]}
{"id": "C83", "title": "Range sets are cut into the right parts", "statement": "r[i] is the element with exactly i smaller ones; split(n) gives min(n, len) non-empty parts that are in order, have together exactly the elements, and differ in size by one at most; contiguous() gives the maximal runs in order, with the padding of the set. (In the code split raises TypeError under Python 3.)", "quantifier": "all range sets, all indices, all numbers of parts", "why_tests_cant": "The sizes and the order of the parts have to be right for every set and every number of parts, including those that do not divide.", "anchors": ["collatex-pythonport/ClusterShell/RangeSet.py::RangeSet.__getitem__", "collatex-pythonport/ClusterShell/RangeSet.py::RangeSet.split", "collatex-pythonport/ClusterShell/RangeSet.py::RangeSet.contiguous", "collatex-pythonport/ClusterShell/RangeSet.py::RangeSet.fromone"]}
{"id": "C84", "title": "Range sets can be pickled", "statement": "What __reduce__ returns gives back a range set with the same elements, padding and autostep. (In the code the empty set and sets with too distant numbers raise when they are read back.)", "quantifier": "all range sets with any padding and autostep", "why_tests_cant": "The round trip goes through the printed form, with folding by steps and padding; all sets have to be covered.", "anchors": ["collatex-pythonport/ClusterShell/RangeSet.py::RangeSet.__reduce__", "collatex-pythonport/ClusterShell/RangeSet.py::RangeSet.__setstate__"]}
{"id": "C85", "title": "A common beginning is aligned", "statement": "If all witnesses begin with the same words, these words stand aligned in the first columns, which are not variant; with segmentation the first column is not variant and its cells begin with them. (In the code this holds if no witness has one of these words again; otherwise the words may be aligned with a later occurrence.)", "quantifier": "all valid lists of witnesses, all common beginnings, with and without segmentation", "why_tests_cant": "The scores of the whole table and the way back through it decide; any later part of any witness could draw the way off the diagonal, and every further witness is aligned with the graph of the earlier ones.", "anchors": ["collatex-pythonport/collatex/edit_graph_aligner.py::EditGraphAligner.fill_needleman_wunsch_table", "collatex-pythonport/collatex/edit_graph_aligner.py::EditGraphAligner.align_matching_tokens", "collatex-pythonport/collatex/core_functions.py::collate"]}
{"id": "C86", "title": "The suffix array of words keeps the text", "statement": "With UNIT_WORD a text is divided at spaces, line breaks are tokens of their own, words are as long as possible, and nothing but spaces is lost. reprString of any part of the text is divided into the same tokens as this part; the whole text is given back as it was exactly if every space stands between two characters of words. With UNIT_BYTE every part comes back as it was. (In the code UNIT_CHARACTER raises AttributeError under Python 3.)", "quantifier": "all texts, all offsets and lengths", "why_tests_cant": "The tokeniser and reprString use replacements of overlapping patterns; all runs of spaces and line breaks have to be covered.", "anchors": ["collatex-pythonport/collatex/linsuffarr.py::SuffixArray.tokenize", "collatex-pythonport/collatex/linsuffarr.py::SuffixArray.reprString"]}
{"id": "C87", "title": "The features of a suffix array belong to their suffixes", "statement": "The method of a feature returns its value for a suffix that begins with the pattern, and the default value if the pattern does not occur. find with features returns the positions of find, each with its own values. addFeature computes the value of a suffix from the values of this suffix. __str__ shows each suffix with its own values. (In the code the features of addFeature return the default value for the first suffix, __str__ is right only from the beginning, and arguments that are not features raise.)", "quantifier": "all texts of other than one token, all patterns, all features with a value for every suffix", "why_tests_cant": "Which of the suffixes is found depends on the binary search; every text and pattern has to be covered.", "anchors": ["collatex-pythonport/collatex/linsuffarr.py::SuffixArray.addFeature", "collatex-pythonport/collatex/linsuffarr.py::SuffixArray.addFeatureSA", "collatex-pythonport/collatex/linsuffarr.py::SuffixArray._findOne", "collatex-pythonport/collatex/linsuffarr.py::SuffixArray.find", "collatex-pythonport/collatex/linsuffarr.py::SuffixArray.__str__"]}
{"id": "C88", "title": "The result depends on the answers of the properties filter only", "statement": "Two properties filters that give the same answers about the tokens of the witnesses (asked with a token of a later witness first and a token of an earlier witness second, without the internal fields of the tokens) lead to the same variant graph and the same output. In particular a filter that accepts all of these pairs is like no filter, and nothing it would answer about two tokens of one witness or in the other order matters.", "quantifier": "all environments, all valid witnesses, all options, all pairs of filters that agree on the witnesses' tokens", "why_tests_cant": "Filters are arbitrary functions; a test compares only a few of them, and cannot exclude that the aligner asks about further pairs.", "anchors": ["collatex-pythonport/collatex/edit_graph_aligner.py::MatchCube.__init__", "collatex-pythonport/collatex/edit_graph_aligner.py::EditGraphAligner.collate", "collatex-pythonport/collatex/core_functions.py::collate"]}
{"id": "C89", "title": "The outputs show near matching", "statement": "With near_match=True the JSON, CSV, XML and TEI outputs show the alignment table that near matching makes, cell by cell, and so carry the whole text of every witness.", "quantifier": "every valid collation whose tokens have texts, every string similarity function, every topological order", "why_tests_cant": "Near matching moves vertices between columns depending on the similarity function; that the text in each output format survives this has to hold for all of them.", "anchors": ["collatex-pythonport/collatex/core_functions.py::collate", "collatex-pythonport/collatex/core_functions.py::export_alignment_table_as_json", "collatex-pythonport/collatex/core_functions.py::export_alignment_table_as_xml", "collatex-pythonport/collatex/core_functions.py::export_alignment_table_as_tei", "collatex-pythonport/collatex/display_module.py::display_alignment_table_as_csv", "collatex-pythonport/collatex/near_matching.py::perform_near_match"]}
{"id": "C90", "title": "Plain texts come back from the output", "statement": "If plain texts with distinct, non-empty sigla are collated, the text of each output, read by a reader of its format, gives back every witness with its siglum: JSON in both layouts and CSV exactly and in the order of the input (CSV without carriage returns), XML exactly and TEI up to white space (without characters that XML does not allow, blanks in sigla or, for XML, carriage returns).", "quantifier": "every list of non-empty texts, every topological order, with and without segmentation, every indentation", "why_tests_cant": "The whole way from the tokeniser through indexing, alignment, merging, ranking and segmentation to the escaping of each format has to keep every character, for all texts and all alignments.", "anchors": ["collatex-pythonport/collatex/core_classes.py::Collation.add_plain_witness", "collatex-pythonport/collatex/core_functions.py::collate", "collatex-pythonport/collatex/core_functions.py::export_alignment_table_as_json", "collatex-pythonport/collatex/core_functions.py::export_alignment_table_as_xml", "collatex-pythonport/collatex/core_functions.py::export_alignment_table_as_tei", "collatex-pythonport/collatex/display_module.py::display_alignment_table_as_csv"]}
{"id": "C91", "title": "A suffix array that is saved and loaded", "statement": "A suffix array that is saved with toFile under a name that ends with .gz and loaded with fromFile has the same text, vocabulary, order and unit, answers every search, shows the same lines and gives the same values of its features; for features of addFeature only where the pattern is not found at the first suffix. Under any other name both methods raise TypeError.", "quantifier": "every suffix array with any features, every unit, every file name, every pattern", "why_tests_cant": "The loaded object is rebuilt without the constructor and its features are all added in another way than before; the difference shows only for patterns found at index 0.", "anchors": ["collatex-pythonport/collatex/linsuffarr.py::SuffixArray.toFile", "collatex-pythonport/collatex/linsuffarr.py::SuffixArray.fromFile", "collatex-pythonport/collatex/linsuffarr.py::_open"]}
{"id": "C92", "title": "Segmentation merges runs of columns", "statement": "For two witnesses, the table with segmentation is the table without segmentation in which every run of neighbouring columns with the same variant mark is put together: one column for each run, with the same mark, and in every cell the tokens of that row in the run, in order, or nothing if there are none.", "quantifier": "all pairs of valid witnesses, every filter, every topological order", "why_tests_cant": "Segmentation joins vertices of the graph, and the table is made from ranks that are computed afresh on the joined graph; that no run is cut or joined too far and that both rows fall into the same columns has to hold for all graphs of two witnesses.", "anchors": ["collatex-pythonport/collatex/core_classes.py::join", "collatex-pythonport/collatex/core_classes.py::VariantGraphRanking.of", "collatex-pythonport/collatex/core_classes.py::AlignmentTable", "collatex-pythonport/collatex/core_functions.py::collate"]}
{"id": "C93", "title": "A single change shows as a single variant", "statement": "If two witnesses differ in one token, which is replaced, added or left out, exactly one column of the table is marked variant; it shows the change, and all other tokens stand in columns where both rows agree: one token each without segmentation, one column before and one after the change with segmentation.", "quantifier": "all pairs of valid witnesses that differ in one token, the place of the change, every topological order, with and without segmentation", "why_tests_cant": "The aligner could prefer another alignment for some texts, and it does for texts with equal neighbours; that it never does for others needs a proof over all texts and places.", "anchors": ["collatex-pythonport/collatex/core_functions.py::collate", "collatex-pythonport/collatex/edit_graph_aligner.py::EditGraphAligner.collate", "collatex-pythonport/collatex/edit_graph_aligner.py::Scorer.score", "collatex-pythonport/collatex/core_classes.py::join"]}
{"id": "C94", "title": "The block scorer matches the tokens of one block", "statement": "If the scorer of suffix_based_scorer.py is given blocks no two of which overlap, every witness can be prepared, in any order and repeatedly; the occurrences in a witness are sorted, lie within the witness and cover exactly the positions of the witness that belong to a block. match answers a full match for two tokens of prepared witnesses exactly if their positions belong to the same block and the filter lets them pass, and no match for a token of a witness that was not prepared. (What the answer does not mean: with the right blocks it also reports a full match of different words of one block.)", "quantifier": "all valid witness lists, all non-empty lists of blocks without common positions, all lists of prepared witnesses, all filters, all pairs of tokens", "why_tests_cant": "The dictionary of occurrences is updated witness by witness; that preparing in any order, or again, never changes the answers is a statement about all sequences of calls and all block sets.", "anchors": ["collatex-pythonport/collatex/suffix_based_scorer.py::Scorer.prepare_witness", "collatex-pythonport/collatex/suffix_based_scorer.py::Scorer.match", "collatex-pythonport/collatex/suffix_based_scorer.py::Scorer._build_tokens_to_occurrences", "collatex-pythonport/collatex/suffix_based_scorer.py::Scorer._get_block_witness", "collatex-pythonport/collatex/extended_suffix_array.py::Occurrence.is_in_range"]}
{"id": "C95", "title": "Lists and links as HTML can be read back", "statement": "From the HTML code of a list of single lines one can read the lines in their order, whether the list is ordered, and its attributes, if names have no equals sign and values no quotation mark. str can be called again with the same result. start is shown exactly if it is neither 0 nor empty. From a link whose address has no quotation mark text and address can be read. (Limits: start 0 is not shown, line ends in lines, and lists that share a dictionary of attributes: the start of one shows in the others.)", "quantifier": "all lists of lines, attributes, starts, texts and addresses", "why_tests_cant": "Injectivity relates all pairs of inputs; str changes the dictionary of attributes, so that what a list shows depends on the calls before.", "anchors": ["collatex-pythonport/collatex/HTML.py::List.__init__", "collatex-pythonport/collatex/HTML.py::List.__str__", "collatex-pythonport/collatex/HTML.py::link"]}
{"id": "C96", "title": "An output fails exactly on tokens without the text it shows", "statement": "For valid witnesses whose sigla are not empty and exact matching, the outputs csv, tsv, tei and html2 and the printed table are there exactly if every token has a string t; otherwise the error is KeyError, and some token has no t, or TypeError, and some token has a t that is no string. The xml output is there exactly if every token has a t. The outputs json, table and graph are always there.", "quantifier": "all valid witness lists with token records of any form, all exporters, all options with exact matching", "why_tests_cant": "One has to show that every token of every witness passes through every exporter and nothing else can fail in them, for all tables.", "anchors": ["collatex-pythonport/collatex/core_functions.py::collate", "collatex-pythonport/collatex/core_functions.py::export_alignment_table_as_tei", "collatex-pythonport/collatex/core_functions.py::export_alignment_table_as_xml", "collatex-pythonport/collatex/display_module.py::display_alignment_table_as_csv", "collatex-pythonport/collatex/display_module.py::visualize_table_vertically_with_colors", "collatex-pythonport/collatex/core_classes.py::Row.to_list_of_strings"]}
{"id": "C97", "title": "A passage common to two witnesses is aligned", "statement": "If two witnesses read A1 X A2 and B1 X B2, the words of the passage X are distinct and occur nowhere else, and no word before the passage in one occurs after it in the other, then the table aligns X word by word, and what stands before and after it is arranged as well as possible on its own.", "quantifier": "all pairs of valid witnesses with a common passage; with and without segmentation", "why_tests_cant": "That no alignment that leaves the passage unaligned can score as high is a statement about all arrangements of all texts before and after the passage; the exact length at which it fails is not visible in samples.", "anchors": ["collatex-pythonport/collatex/edit_graph_aligner.py::EditGraphAligner.fill_needleman_wunsch_table", "collatex-pythonport/collatex/edit_graph_aligner.py::EditGraphAligner.calculate_from_upper", "collatex-pythonport/collatex/edit_graph_aligner.py::Scorer.score", "collatex-pythonport/collatex/core_classes.py::VariantGraphRanking.of"]}
{"id": "C98", "title": "The dashed lines of the drawing show the similarity of the words they join", "statement": "With near matching the drawing has one dashed line for every near edge, and its label is the ratio of the labels of the two vertices it joins, also if an edge is added again. Giving weights to the edges does not change what near matching does. With at most two witnesses a dashed line joins two vertices of the same column (false for three witnesses).", "quantifier": "all valid witness lists with texts, any similarity function and any format of the label", "why_tests_cant": "The weight is computed as a maximum over a dictionary of candidates and the winner separately; that they agree for every edge in every state of the loop is a statement about all runs.", "anchors": ["collatex-pythonport/collatex/near_matching.py::perform_near_match", "collatex-pythonport/collatex/core_classes.py::VariantGraph.connect_near", "collatex-pythonport/collatex/display_module.py::display_variant_graph_as_svg"]}
{"id": "C99", "title": "Witnesses that keep their places are aligned place by place", "statement": "If all witnesses have the same number of words, and every word of a witness stands on the same place in some earlier witness or in no earlier witness at all, then the table without segmentation has one column for each place with the words of all witnesses on that place, and a column is variant exactly if the words differ. If witnesses that share a word share its place, this holds in every order of the witnesses. With segmentation it is false, and so it is for words in other places.", "quantifier": "any number of valid witnesses of any length, words may occur repeatedly; exact matching", "why_tests_cant": "Every new witness is aligned with a graph made by all earlier ones; that the diagonal is the only best path at every step, whatever the words repeated elsewhere, is an induction over the witnesses.", "anchors": ["collatex-pythonport/collatex/edit_graph_aligner.py::EditGraphAligner.collate", "collatex-pythonport/collatex/edit_graph_aligner.py::EditGraphAligner.fill_needleman_wunsch_table", "collatex-pythonport/collatex/core_functions.py::collate"]}
{"id": "C100", "title": "Words that were kept are aligned if the others were replaced by new words or left out", "statement": "If one of two witnesses is the other with some words left out and some replaced by words that the other does not have, every word that was kept is aligned with the same word, and the row of the fuller witness has no gap. If words are both left out and added this is false.", "quantifier": "all pairs of valid witnesses of which the second has no word twice in a row; with and without segmentation; either witness may be the fuller one", "why_tests_cant": "It compares the alignment found with all others of all such pairs of texts.", "anchors": ["collatex-pythonport/collatex/edit_graph_aligner.py::EditGraphAligner.collate", "collatex-pythonport/collatex/edit_graph_aligner.py::Scorer.score", "collatex-pythonport/collatex/core_functions.py::collate"]}
{"id": "C101", "title": "A further witness is placed against the earlier ones as well as possible", "statement": "Without segmentation, if a further witness is added to some witnesses, the columns in which its row has a word that an earlier row has too, less the other columns, are at least as many as in any way of placing its words, in order, below or between the columns of the table of the earlier witnesses. This holds unless the new witness repeats a word while the word just before the repetition stands in the same column of the earlier table (as equal neighbours do); then it is false.", "quantifier": "any number of valid witnesses before the new one (from the third on: if no earlier collation had two vertices with one reading on one rank), all placings; exact matching, no filter", "why_tests_cant": "It compares the table with all placings of all texts below all tables, whose number is exponential; and that the row found by walking through the score table reaches that value depends on how new vertices change the ranks.", "anchors": ["collatex-pythonport/collatex/edit_graph_aligner.py::EditGraphAligner.fill_needleman_wunsch_table", "collatex-pythonport/collatex/edit_graph_aligner.py::EditGraphAligner.collate", "collatex-pythonport/collatex/edit_graph_aligner.py::Scorer.score", "collatex-pythonport/collatex/core_classes.py::VariantGraphRanking.of"]}
{"id": "C102", "title": "Two witnesses are collated as by a short program on two lists of words", "statement": "The rows of the table of two witnesses and the marks of its columns are exactly what a program of a few lines computes from the two lists of words: fill a table of scores (a link of equal words scores one, any other step loses one, draws are broken in a fixed order, a word repeated at once in the second text may be linked again), link each word of the first text to the last word it was linked to, give each link a column that is not variant and write the words between two links below each other. So the result depends on nothing but the words.", "quantifier": "all pairs of valid witnesses, including repeated words; all topological sorts; with and without segmentation; exact matching, no filter", "why_tests_cant": "It fixes the whole result for all pairs of texts of any length, through the token index, blocks, graph, merging and ranking.", "anchors": ["collatex-pythonport/collatex/core_functions.py::collate", "collatex-pythonport/collatex/edit_graph_aligner.py::EditGraphAligner.fill_needleman_wunsch_table", "collatex-pythonport/collatex/edit_graph_aligner.py::EditGraphAligner.collate", "collatex-pythonport/collatex/edit_graph_aligner.py::Scorer.score", "collatex-pythonport/collatex/core_classes.py::VariantGraphRanking.of", "collatex-pythonport/collatex/core_classes.py::AlignmentTable"]}
{"id": "C103", "title": "Any number of witnesses are collated one after the other as by a short program", "statement": "Without segmentation, the rows of the table and the marks of its columns are exactly what a program of a few lines makes of the lists of words: the texts are lists of nodes; the column of a node is the one after the last column of the nodes directly before it; a further text is aligned with the columns by a table of scores (a word of the text that some node of a column has scores one, any other step loses one), each linked word takes a node of that column with that word (the last word keeps a node that several words took), the other words become new nodes; a column is not variant if all texts have the same node there. If at no stage two nodes of a column have the same word, nothing is left to choose and the table is a function of the words alone.", "quantifier": "all lists of valid witnesses, including repeated words; all topological sorts; exact matching, no filter, no segmentation", "why_tests_cant": "It fixes the whole result for any number of texts of any length, through the token index, suffix array, blocks, match cube, graph, merging and ranking.", "anchors": ["collatex-pythonport/collatex/core_functions.py::collate", "collatex-pythonport/collatex/edit_graph_aligner.py::EditGraphAligner.fill_needleman_wunsch_table", "collatex-pythonport/collatex/edit_graph_aligner.py::EditGraphAligner.align_matching_tokens", "collatex-pythonport/collatex/edit_graph_aligner.py::EditGraphAligner.collate", "collatex-pythonport/collatex/edit_graph_aligner.py::MatchCube", "collatex-pythonport/collatex/core_classes.py::CollationAlgorithm.merge", "collatex-pythonport/collatex/core_classes.py::VariantGraphRanking.of", "collatex-pythonport/collatex/core_classes.py::AlignmentTable"]}
{"id": "C104", "title": "Segmentation puts together exactly what always stands together", "statement": "With segmentation (the default), the rows of the table and the marks of its columns are exactly what the program of C103 and three more lines make of the lists of words: after all texts are collated, two nodes are glued if every text has both, the second directly after the first, or neither; each text is cut wherever a node and the next one are not glued; each piece becomes one node, placed and marked as before, and is shown with all its words. If at no stage two nodes of a column have the same word, nothing is left to choose and the table is a function of the words alone.", "quantifier": "all lists of valid witnesses, including repeated words; all topological sorts; exact matching, no filter, segmentation", "why_tests_cant": "It fixes the whole result of the default options for any number of texts of any length, and the join loop contracts edges one at a time in an order that depends on the graph, of which there are unboundedly many.", "anchors": ["collatex-pythonport/collatex/core_functions.py::collate", "collatex-pythonport/collatex/core_classes.py::join", "collatex-pythonport/collatex/edit_graph_aligner.py::EditGraphAligner.collate", "collatex-pythonport/collatex/core_classes.py::VariantGraphRanking.of", "collatex-pythonport/collatex/core_classes.py::AlignmentTable"]}
{"id": "C105", "title": "Near matching of two witnesses is done as by a short program", "statement": "With near matching, the rows of the table of two witnesses and the marks of its columns are exactly what the program of C103 and a few more lines make of the two lists of words and the similarity function: going through each text from its end, a word that is not shared with the other text takes, among the columns from its own up to the one before the next word of its text, the first of those where it is most similar to what the other text has there; shared words and the marks of the columns stay as they were. The result does not depend on the topological sort, the sigla or the other properties of the tokens.", "quantifier": "all pairs of valid witnesses, including repeated words; every similarity function; all topological sorts; no filter", "why_tests_cant": "It fixes the whole result for all pairs of texts of any length and every similarity function; the code recomputes the ranking after every move and the order of the moves depends on the topological sort.", "anchors": ["collatex-pythonport/collatex/near_matching.py::perform_near_match", "collatex-pythonport/collatex/core_functions.py::collate", "collatex-pythonport/collatex/core_classes.py::VariantGraphRanking.of", "collatex-pythonport/collatex/core_classes.py::AlignmentTable", "collatex-pythonport/collatex/edit_graph_aligner.py::EditGraphAligner.collate"]}
{"id": "C106", "title": "With near matching the topological order does not matter", "statement": "With near matching, any two correct topological sort functions lead to the same rows of the table and the same marks of its columns.", "quantifier": "all sets of valid witnesses; every similarity function; all filters; all pairs of topological sorts", "why_tests_cant": "A test runs with the one order that the installed version of networkx returns, while the code walks through the vertices in that order, moves some of them and recomputes the ranking after every move.", "anchors": ["collatex-pythonport/collatex/near_matching.py::perform_near_match", "collatex-pythonport/collatex/core_classes.py::VariantGraphRanking.of", "collatex-pythonport/collatex/core_functions.py::collate"]}
{"id": "C107", "title": "From plain texts to the fields of the output by a short program", "statement": "The CSV, TSV and JSON outputs for two plain texts, read by a reader of the format, consist of the sigla and of the cells that a short program gives: cut the texts into their tokens, strip the tokens, align the lists of words, deal the tokens out to the cells of the rows. So it is without segmentation, with segmentation and with near matching; and for more texts (without near matching) if at no step two words in a column are equal.", "quantifier": "all pairs of non-empty plain texts of practical length with distinct non-empty sigla (more texts under the condition named); all character classes in which digits are word characters and the dollar sign is not; every topological sort and similarity function; all indentations", "why_tests_cant": "It is a statement of the whole way from the input to the output for all texts: input, tokenizer, suffix array, blocks, aligner, graph, segmentation, near matching, ranking, table and the writers of the formats. A test sees it for the texts that it has.", "anchors": ["collatex-pythonport/collatex/core_functions.py::collate", "collatex-pythonport/collatex/core_classes.py::Collation.add_plain_witness", "collatex-pythonport/collatex/core_classes.py::WordPunctuationTokenizer.tokenize", "collatex-pythonport/collatex/core_classes.py::AlignmentTable", "collatex-pythonport/collatex/core_functions.py::export_alignment_table_as_json", "collatex-pythonport/collatex/display_module.py::display_alignment_table_as_csv"]}
{"id": "C108", "title": "The table can be cut at a column that is not marked", "statement": "Take any column of a table that is not marked as variant. The columns before it are the table of what the witnesses have before it, and the columns after it are the table of what they have after it: the text on one side of common words has no influence on the alignment on the other side. It holds for two and three witnesses if no word of a witness after the first is equal to its neighbour, and for more if also no two nodes of a column have the same word while the texts are collated; with equal neighbours it can fail.", "quantifier": "all witnesses of practical length, all but the first without equal neighbours; every column that is not marked; all witnesses with the words on one side of it; with and without segmentation; every topological sort", "why_tests_cant": "It relates the collation of every pair of texts to the collations of all its parts; the aligner fills its table for the whole texts, and a test compares finitely many cuts.", "anchors": ["collatex-pythonport/collatex/core_functions.py::collate", "collatex-pythonport/collatex/edit_graph_aligner.py::EditGraphAligner.fill_needleman_wunsch_table", "collatex-pythonport/collatex/edit_graph_aligner.py::EditGraphAligner.align_matching_tokens", "collatex-pythonport/collatex/core_classes.py::AlignmentTable"]}
{"id": "C109", "title": "Of two passages that changed places the longer is aligned", "statement": "Two witnesses have the same distinct words, but two neighbouring passages changed places. Then the longer passage is aligned word by word, and so is what stands before the two and after them; the shorter one is shown as an addition of the one witness in one place and as an addition of the other witness in another. If the passages have the same length, the one that stands first in the first witness is aligned.", "quantifier": "all pairs of witnesses with distinct words that differ by an exchange of two neighbouring passages of any length, with any text before and after them; with and without segmentation; every topological sort", "why_tests_cant": "The words, the lengths of the four parts and the choice among equally good alignments are unlimited; a test has single cases. The case of passages of the same length depends on how the aligner decides between equal scores.", "anchors": ["collatex-pythonport/collatex/core_functions.py::collate", "collatex-pythonport/collatex/edit_graph_aligner.py::EditGraphAligner.fill_needleman_wunsch_table", "collatex-pythonport/collatex/edit_graph_aligner.py::EditGraphAligner.align_matching_tokens", "collatex-pythonport/collatex/core_classes.py::AlignmentTable"]}
{"id": "C110", "title": "Common words at the beginning and at the end can be left out", "statement": "All witnesses begin with the same words and end with the same words. Then the table is that of what stands between, with a column for each common word before and after it (with segmentation one column for all of them on each side, if the rests do not begin or end with a common word themselves). It holds for at most three witnesses if no word of a witness after the first is equal to its neighbour and each witness has each word of the beginning once, and for more if also no two nodes of a column have the same word while the texts are collated; without these conditions it can fail.", "quantifier": "all witnesses of practical length that meet the conditions; beginnings and ends of any length; with and without segmentation; every topological sort", "why_tests_cant": "It relates the collation of all texts to the collation of all their middle parts; the words, the lengths of the parts and the number of witnesses are unlimited.", "anchors": ["collatex-pythonport/collatex/core_functions.py::collate", "collatex-pythonport/collatex/edit_graph_aligner.py::EditGraphAligner.collate", "collatex-pythonport/collatex/edit_graph_aligner.py::EditGraphAligner.fill_needleman_wunsch_table", "collatex-pythonport/collatex/core_classes.py::AlignmentTable"]}
{"id": "C111", "title": "A passage that all witnesses share divides the collation", "statement": "All witnesses have a passage, its words are distinct and stand nowhere else, and no word before the passage in one witness stands after it in another. Then the table is the table of what stands before the passage, then the columns of the passage, none of them variant, then the table of what stands after it. It holds for at most three witnesses if the passage is more than half as long as what stands on one of two opposite sides of it and no word of a witness after the first is equal to its neighbour, and for more witnesses if also no two nodes of a column have the same word while the texts are collated; a passage of half that length need not be aligned.", "quantifier": "all witnesses of practical length that meet the conditions; passages of any length; with and without segmentation; every topological sort", "why_tests_cant": "That no better score can be had by leaving the passage unaligned is a statement about all alignments of all texts before and after it, repeated for each further witness; the length at which it fails is not visible in samples.", "anchors": ["collatex-pythonport/collatex/edit_graph_aligner.py::EditGraphAligner.collate", "collatex-pythonport/collatex/edit_graph_aligner.py::EditGraphAligner.fill_needleman_wunsch_table", "collatex-pythonport/collatex/edit_graph_aligner.py::Scorer.score", "collatex-pythonport/collatex/core_classes.py::VariantGraphRanking.of", "collatex-pythonport/collatex/core_classes.py::AlignmentTable"]}
{"id": "C112", "title": "The tables of two witnesses measure a distance", "statement": "Count three for each cell that is empty beside a word and four for each pair of different words in the table of two witnesses. The sum is the least cost of turning one text into the other by leaving out, adding and replacing words at these prices. It is nought exactly for equal texts, it is the same in either order and for both texts read backwards, and the sum for two witnesses is no larger than their sums with a third together. It holds if no word of the texts is equal to its neighbour; with equal neighbours the triangle can fail.", "quantifier": "all pairs and triples of witnesses of practical length without equal neighbours; no segmentation; every topological sort", "why_tests_cant": "It compares three collations of arbitrary texts with each other and each of them with all other ways to edit a text; the number of edit scripts is unlimited.", "anchors": ["collatex-pythonport/collatex/edit_graph_aligner.py::EditGraphAligner.fill_needleman_wunsch_table", "collatex-pythonport/collatex/edit_graph_aligner.py::EditGraphAligner.calculate_from_upper", "collatex-pythonport/collatex/edit_graph_aligner.py::Scorer.score", "collatex-pythonport/collatex/core_functions.py::collate"]}
{"id": "C113", "title": "Equal keys are found in dictionaries", "statement": "The coordinates of matches and the blocks define their own equality and their own hash values, and they are used as keys. A dictionary finds for a key exactly what was entered last under an equal key: equal keys have the same hash value, and different keys with the same hash value (such as row 0, rank 10 and row 1, rank 0) are not confused, whatever the size of the table. For blocks this holds if their range sets have the same padding and the same autostep; equal blocks whose range sets are printed differently are not found.", "quantifier": "all sequences of entries, all keys, all sizes of the table, every reduction of hash values to machine words and every hash function of strings", "why_tests_cant": "Whether two keys meet in one place of the table depends on its size and on the hash function of strings, which Python chooses at random for each run.", "anchors": ["collatex-pythonport/collatex/edit_graph_aligner.py::MatchCoordinate.__eq__", "collatex-pythonport/collatex/edit_graph_aligner.py::MatchCoordinate.__hash__", "collatex-pythonport/collatex/edit_graph_aligner.py::MatchCube.has_match", "collatex-pythonport/collatex/edit_graph_aligner.py::MatchCube.get_match", "collatex-pythonport/collatex/extended_suffix_array.py::Block.__hash__", "collatex-pythonport/collatex/extended_suffix_array.py::Block.__eq__"]}
{"id": "C114", "title": "Few changes show in few columns", "statement": "If one of two texts is turned into the other in any way, with some words kept, some replaced and some added or left out, the table shows no more than that: at most one marked column for every word added or left out and four for every three words replaced, so that one or two replacements never make more marked columns than there were changes. Both rows have the same words in the unmarked columns; of the words that were kept at most one for every four added or left out is missing there, none if words were only replaced. It holds if no word of the second text is equal to its neighbour; with equal neighbours one added word can mark two columns.", "quantifier": "all pairs of witnesses of practical length, the second without equal neighbours; all ways to edit the one into the other; with and without segmentation; every topological sort", "why_tests_cant": "It compares the table with every way in which the second text may have arisen from the first; the number of edit scripts is unlimited.", "anchors": ["collatex-pythonport/collatex/edit_graph_aligner.py::EditGraphAligner.fill_needleman_wunsch_table", "collatex-pythonport/collatex/edit_graph_aligner.py::EditGraphAligner.calculate_from_upper", "collatex-pythonport/collatex/edit_graph_aligner.py::Scorer.score", "collatex-pythonport/collatex/core_functions.py::collate"]}
{"id": "C115", "title": "A further witness takes no column away", "statement": "If one more witness is collated after the others, the unsegmented table has at least as many columns as the table of the others, and at most as many more as the new witness has words; each word of the earlier witnesses stands in its old column or further to the right. It holds for the second and third witness, for the fourth if the second repeats no word, and for later ones as long as no collation of fewer witnesses has two vertices with the same reading on one rank; without that the new witness can change how the earlier ones are aligned, and the table gets narrower. With segmentation too there are at least as many columns as before, under the same conditions, and each word stands in the column with its old number or one with a higher number.", "quantifier": "all witnesses and a further one; every topological sort", "why_tests_cant": "It compares the tables of all lists of witnesses with those of all their extensions.", "anchors": ["collatex-pythonport/collatex/edit_graph_aligner.py::EditGraphAligner.collate", "collatex-pythonport/collatex/core_classes.py::CollationAlgorithm.merge", "collatex-pythonport/collatex/edit_graph_aligner.py::MatchCube.__init__", "collatex-pythonport/collatex/core_classes.py::VariantGraphRanking.of"]}
{"id": "C116", "title": "A witness copied from any earlier one with few changes is recognised", "statement": "If a further witness is one of the earlier ones with some words kept, some replaced, some left out and some added, its row of the unsegmented table agrees with others in at least as many columns as words were kept, less one for every two words added; and the table gets at most one further column for every word added and two for every word that agrees beyond those kept. If nothing was added, at least as many words agree as were kept, and no column is added if no others agree. It holds for the second and third witness if they repeat no word, for the fourth if moreover the second has no equal neighbours, and generally under the conditions of C101 and C115.", "quantifier": "all witnesses and a further one; all earlier witnesses it may have been copied from and all ways to edit; every topological sort", "why_tests_cant": "It compares the table with every way in which the witness may have arisen from any of the others.", "anchors": ["collatex-pythonport/collatex/edit_graph_aligner.py::EditGraphAligner.fill_needleman_wunsch_table", "collatex-pythonport/collatex/edit_graph_aligner.py::EditGraphAligner.align_matching_tokens", "collatex-pythonport/collatex/edit_graph_aligner.py::Scorer.score", "collatex-pythonport/collatex/core_classes.py::CollationAlgorithm.merge"]}
{"id": "C117", "title": "The words on which all witnesses agree", "statement": "The words in the columns that are not marked as variant are the same in all rows, and each witness has the same tokens there with and without segmentation. With one more witness they are a subsequence of what they were without it: for two and three witnesses always, for the fourth if the second repeats no word, and generally if no collation of fewer of the witnesses has two vertices with the same reading on one rank.", "quantifier": "all valid witnesses; every topological sort; with and without segmentation; for the first two parts also with a property filter", "why_tests_cant": "It relates the tables of different runs (other options, one more witness), whose columns differ.", "anchors": ["collatex-pythonport/collatex/core_classes.py::AlignmentTable._construct_table", "collatex-pythonport/collatex/core_classes.py::join", "collatex-pythonport/collatex/core_classes.py::VariantGraphRanking.of", "collatex-pythonport/collatex/core_classes.py::CollationAlgorithm.merge"]}
{"id": "C118", "title": "Collation with the A* aligner", "statement": "The progressive collation against a growing superbase, with a match function for the scorer, does not fail and gives a graph without cycles, along which each witness can be read and on each vertex of which all tokens match its first token fully. It holds if no two tokens of a witness match the same token and each witness between the first and the last has at least two tokens.", "quantifier": "all match functions; all lists of non-empty witnesses with distinct sigla and distinct token objects", "why_tests_cant": "The order of the superbase has to agree with an order of the graph after every witness; the code keeps no such order, so no run shows it.", "anchors": ["collatex-pythonport/collatex/experimental_astar_aligner.py::ExperimentalAstarAligner.collate", "collatex-pythonport/collatex/experimental_astar_aligner.py::ExperimentalAstarAligner._align_astar", "collatex-pythonport/collatex/experimental_astar_aligner.py::ExperimentalAstarAligner.newer_add_to_superbase", "collatex-pythonport/collatex/core_classes.py::CollationAlgorithm.merge"]}
{"id": "C119", "title": "Near matching leaves alone what cannot move", "statement": "Near matching changes the graph or the ranking if and only if some vertex has successors but none of them in the next column. In particular, if without near matching no row of the table has an empty cell directly after a filled one, every output is the same with near matching as without, and the table is lossless.", "quantifier": "all valid inputs of any number of witnesses; all similarity functions; all topological orders", "why_tests_cant": "The condition is exact: both that near matching does nothing on all graphs without such a vertex and that it does something on all others, whatever the similarity function.", "anchors": ["collatex-pythonport/collatex/near_matching.py::perform_near_match", "collatex-pythonport/collatex/core_classes.py::VariantGraphRanking.of", "collatex-pythonport/collatex/core_functions.py::collate"]}
{"id": "C120", "title": "A collation is read from a JSON file as from the dict", "statement": "Collation.create_from_json on a file whose text is a JSON document of witnesses gives the same collation as create_from_dict on the witnesses described, or raises the same exception, whatever the layout, the order of entries and further entries; collating it gives the same JSON text. What json.dumps writes for any list of witnesses is such a document. A token that is a string with n or t, a list with one of these strings, a number or a truth value is a TypeError, another string or list a TokenError.", "quantifier": "all lists of witnesses with contents or token records; all JSON texts that describe them", "why_tests_cant": "Layouts, escapes, orders of entries and additional entries are unbounded.", "anchors": ["collatex-pythonport/collatex/core_classes.py::Collation.create_from_json", "collatex-pythonport/collatex/core_classes.py::Collation.create_from_dict", "collatex-pythonport/collatex/core_classes.py::Collation.add_witness", "collatex-pythonport/collatex/core_classes.py::Witness.__init__"]}
