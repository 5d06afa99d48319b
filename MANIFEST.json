{
 "claims": [
  {
   "property": "C01",
   "status": "proved",
   "theorems": [
    "CollateX.C01_plain_text_lossless"
   ],
   "note": "Any text, any character classification."
  },
  {
   "property": "C02",
   "status": "proved",
   "theorems": [
    "CollateX.C02_token_boundaries_canonical",
    "CollateX.C02_witness_tokens_canonical"
   ],
   "note": "Existence and uniqueness of the split."
  },
  {
   "property": "C03",
   "status": "proved",
   "theorems": [
    "CollateX.C03_normalised_form",
    "CollateX.C03_non_space_survives"
   ],
   "note": ""
  },
  {
   "property": "C04",
   "status": "proved",
   "theorems": [
    "CollateX.C04_history",
    "CollateX.C04_token_error",
    "CollateX.C04_tokens",
    "CollateX.C04_from_dict"
   ],
   "note": ""
  },
  {
   "property": "C05",
   "status": "proved",
   "theorems": [
    "CollateX.C05_token_index_layout",
    "CollateX.C05_ranges_disjoint"
   ],
   "note": ""
  },
  {
   "property": "C06",
   "status": "proved",
   "theorems": [
    "CollateX.C06_only_bookkeeping_keys"
   ],
   "note": "For every successful collate with any options."
  },
  {
   "property": "C07",
   "status": "partial",
   "theorems": [
    "CollateX.C07_degenerate_rejected_partial",
    "CollateX.C07_no_witnesses",
    "CollateX.C07_empty_witness",
    "CollateX.C07_duplicate_sigla_not_rejected"
   ],
   "note": "Empty collations and empty witnesses are rejected. The claim is false for duplicate sigla: a silently mis-collated witness list is proved."
  },
  {
   "property": "C08",
   "status": "proved",
   "theorems": [
    "CollateX.C08_suffix_array_sorted"
   ],
   "note": "All sequences of length >= 2, all strings (order by code point)."
  },
  {
   "property": "C09",
   "status": "proved",
   "theorems": [
    "CollateX.C09_radix_pass_stable_sort"
   ],
   "note": "Keys must be readable and at most K (otherwise Python raises IndexError)."
  },
  {
   "property": "C10",
   "status": "proved",
   "theorems": [
    "CollateX.C10_lcp_array"
   ],
   "note": ""
  },
  {
   "property": "C100",
   "status": "proved",
   "theorems": [
    "CollateX.C100_rewording",
    "CollateX.C100_rewording_first",
    "CollateX.C100_left_out_and_added"
   ],
   "note": "two witnesses, either may be the fuller one; negation for words left out and added"
  },
  {
   "property": "C101",
   "status": "partial",
   "theorems": [
    "CollateX.C101_placed_partial",
    "CollateX.C101_third_partial",
    "CollateX.C101_distinct",
    "CollateX.C101_repeats",
    "CollateX.C101_fourth_partial"
   ],
   "note": "Proved under the stated condition on repeated words (false without, C101_repeats) and, from the fourth witness on, under C59's condition on twins in the collations of the earlier witnesses. A fourth witness needs only that the second has no equal neighbours (C101_fourth_partial)."
  },
  {
   "property": "C102",
   "status": "proved",
   "theorems": [
    "CollateX.C102_two_witnesses",
    "CollateX.C102_words_only"
   ],
   "note": "Full functional specification of the table of two witnesses, equal words included; C102_words_only is a corollary."
  },
  {
   "property": "C103",
   "status": "proved",
   "theorems": [
    "CollateX.C103_progressive",
    "CollateX.C103_computed",
    "CollateX.C103_words_only",
    "CollateX.C103_two",
    "CollateX.C103_three"
   ],
   "note": "The whole claim, for any number of witnesses without segmentation. Where two nodes of a column have the same word the choice between them is left open (it depends on the alphabetical order of other words, C57); C103_computed gives the function when this does not happen. It never happens for two witnesses (C103_two), nor for three of which the second has no equal neighbours (C103_three)."
  },
  {
   "property": "C104",
   "status": "proved",
   "theorems": [
    "CollateX.C104_segmented",
    "CollateX.C104_computed",
    "CollateX.C104_words_only",
    "CollateX.C104_two",
    "CollateX.C104_three"
   ],
   "note": "Exact matching, no filter, segmentation; any number of witnesses. C104_computed and C104_words_only assume that at no stage two nodes of a column have the same word (checked by a decidable condition on the words). The condition is met by any two witnesses (C104_two) and by three of which the second has no equal neighbours (C104_three)."
  },
  {
   "property": "C105",
   "status": "proved",
   "theorems": [
    "CollateX.C105_near_program",
    "CollateX.C105_words_only"
   ],
   "note": "Full table of two witnesses with near matching, as a function of the words and the similarity function."
  },
  {
   "property": "C106",
   "status": "partial",
   "theorems": [
    "CollateX.C106_two_witnesses_partial",
    "CollateX.C106_three_witnesses",
    "CollateX.C106_flush_right_partial"
   ],
   "note": "True for two witnesses (any filter, any similarity function). False for three: C106_three_witnesses gives two correct topological sorts that lead to different tables."
  },
  {
   "property": "C107",
   "status": "proved",
   "theorems": [
    "CollateX.C107_csv",
    "CollateX.C107_json",
    "CollateX.C107_two",
    "CollateX.C107_words",
    "CollateX.C107_json_three",
    "CollateX.C107_csv_three"
   ],
   "note": "Any number of texts under the condition of C103; two texts without condition (C107_two); near matching for two texts. C107_words: the tokens and words spoken of exist and are unique. Three texts of which the second has no equal neighbours need no further condition (C107_json_three, C107_csv_three)."
  },
  {
   "property": "C108",
   "status": "partial",
   "theorems": [
    "CollateX.C108_cut_partial",
    "CollateX.C108_three_partial",
    "CollateX.C108_cut_many_partial",
    "CollateX.C108_segmented_many_partial",
    "CollateX.C108_equal_neighbours"
   ],
   "note": "Proved for two and three witnesses, all but the first without equal neighbours (C108_cut_partial, C108_three_partial), and for any number if also no two nodes of a column have the same word while the texts are collated (C108_cut_many_partial without segmentation, C108_segmented_many_partial with it). Without the condition on equal neighbours the claim is false (C108_equal_neighbours)."
  },
  {
   "property": "C109",
   "status": "proved",
   "theorems": [
    "CollateX.C109_transposed",
    "CollateX.C109_common_word"
   ],
   "note": "For witnesses with distinct words. C109_common_word shows that distinctness is needed."
  },
  {
   "property": "C11",
   "status": "proved",
   "theorems": [
    "CollateX.C11_blocks_sound"
   ],
   "note": ""
  },
  {
   "property": "C110",
   "status": "partial",
   "theorems": [
    "CollateX.C110_three_partial",
    "CollateX.C110_three_segmented_partial",
    "CollateX.C110_opening_partial",
    "CollateX.C110_ending_partial",
    "CollateX.C110_opening_segmented_partial",
    "CollateX.C110_ending_segmented_partial",
    "CollateX.C110_repeated_opening",
    "CollateX.C110_equal_neighbours",
    "CollateX.C110_both_partial",
    "CollateX.C110_both_segmented_partial"
   ],
   "note": "Proved for at most three witnesses, all but the first without equal neighbours, each word of the beginning once in each witness (C110_three_partial without segmentation, C110_three_segmented_partial with it); for any number if also no two nodes of a column have the same word while the texts are collated (the other _partial theorems; C110_both_partial and C110_both_segmented_partial for both sides at once). Without these conditions the claim is false (C110_repeated_opening, C110_equal_neighbours)."
  },
  {
   "property": "C111",
   "status": "partial",
   "theorems": [
    "CollateX.C111_aligned_partial",
    "CollateX.C111_divides_partial",
    "CollateX.C111_segmented_partial",
    "CollateX.C111_segmented_divides_partial",
    "CollateX.C111_three_partial",
    "CollateX.C111_three_segmented_partial",
    "CollateX.C111_long_enough",
    "CollateX.C111_long_enough_sums",
    "CollateX.C111_short"
   ],
   "note": "The passage is aligned and divides the table: any number of witnesses, with and without segmentation, if it is long enough (LongEnough), the later witnesses have no equal neighbours, and the short program finds nothing to choose (always so for three witnesses). C111_short shows that the length is needed."
  },
  {
   "property": "C112",
   "status": "partial",
   "theorems": [
    "CollateX.C112_least_partial",
    "CollateX.C112_zero_partial",
    "CollateX.C112_either_order_partial",
    "CollateX.C112_triangle_partial",
    "CollateX.C112_backwards_partial",
    "CollateX.C112_repeats",
    "CollateX.C112_not_mirrored"
   ],
   "note": "Proved for witnesses without equal neighbours (only where a witness comes second); C112_repeats shows that the triangle fails otherwise."
  },
  {
   "property": "C113",
   "status": "partial",
   "theorems": [
    "CollateX.C113_coordinates",
    "CollateX.C113_cube",
    "CollateX.C113_blocks_partial",
    "CollateX.C113_padding",
    "CollateX.C113_autostep"
   ],
   "note": "Coordinates in full, for every table size. Blocks if all range sets have the same padding and autostep; the full claim for blocks is false (C113_padding, C113_autostep)."
  },
  {
   "property": "C114",
   "status": "partial",
   "theorems": [
    "CollateX.C114_few_changes_partial",
    "CollateX.C114_two_changes_partial",
    "CollateX.C114_replaced_partial",
    "CollateX.C114_more_columns",
    "CollateX.C114_missed",
    "CollateX.C114_repeats"
   ],
   "note": "If no two neighbouring words of the second witness are equal; with equal neighbours the claim is false (C114_repeats)."
  },
  {
   "property": "C115",
   "status": "partial",
   "theorems": [
    "CollateX.C115_wider_partial",
    "CollateX.C115_third_partial",
    "CollateX.C115_fourth_partial",
    "CollateX.C115_narrower",
    "CollateX.C115_segmented_partial",
    "CollateX.C115_segmented_third_partial",
    "CollateX.C115_segmented_fourth_partial",
    "CollateX.C115_segmented_narrower"
   ],
   "note": "Without the condition that no collation of fewer witnesses has twins (two vertices of one reading on one rank) the claim is false (C115_narrower); no condition for the second and third witness (C115_third_partial)."
  },
  {
   "property": "C116",
   "status": "partial",
   "theorems": [
    "CollateX.C116_copied_partial",
    "CollateX.C116_third_partial",
    "CollateX.C116_nothing_added_partial",
    "CollateX.C116_missed",
    "CollateX.C116_repeats",
    "CollateX.C116_fourth_partial"
   ],
   "note": "Under the conditions of C101 and C115, which the second and third witness meet if they repeat no word (C116_third_partial) and the fourth if also the second has no equal neighbours (C116_fourth_partial); with equal neighbours the claim is false (C116_repeats), and kept words can be missed if words were added (C116_missed)."
  },
  {
   "property": "C117",
   "status": "partial",
   "theorems": [
    "CollateX.C117_segmentation",
    "CollateX.C117_same_words",
    "CollateX.C117_fewer_partial",
    "CollateX.C117_third_partial",
    "CollateX.C117_fourth_partial",
    "CollateX.C117_more"
   ],
   "note": "The same words in all rows, and with and without segmentation, unconditionally; with a further witness a subsequence, under the condition that no smaller collation has two vertices with the same reading on one rank (always met up to the third witness). Without it the claim is false (C117_more)."
  },
  {
   "property": "C118",
   "status": "partial",
   "theorems": [
    "CollateX.C118_graph_partial",
    "CollateX.C118_fails",
    "CollateX.C118_cycle",
    "CollateX.C118_lost",
    "CollateX.C118_same"
   ],
   "note": "Proved for match functions under which no two tokens of a witness match the same token; then the collation fails only if a witness between the first and the last has a single token. The full claim is false: C118_fails (IndexError), C118_cycle (a self-loop), and C118_lost shows a word that is not aligned again."
  },
  {
   "property": "C119",
   "status": "proved",
   "theorems": [
    "CollateX.C119_iff",
    "CollateX.C119_flush_right",
    "CollateX.C119_lossless"
   ],
   "note": "The condition on vertices is exact; the condition on the table is sufficient."
  },
  {
   "property": "C12",
   "status": "proved",
   "theorems": [
    "CollateX.C12_blocks_complete"
   ],
   "note": "Stated for occurrences inside witnesses (valid input)."
  },
  {
   "property": "C120",
   "status": "proved",
   "theorems": [
    "CollateX.C120_file",
    "CollateX.C120_dumps",
    "CollateX.C120_collate",
    "CollateX.C120_rejected",
    "CollateX.C120_last_counts",
    "CollateX.C120_no_record"
   ],
   "note": "Sigla and contents are strings and tokens dicts; json.load is the reader of C72 (no fractions or exponents). A string instead of a file raises AttributeError (C120_rejected)."
  },
  {
   "property": "C13",
   "status": "proved",
   "theorems": [
    "CollateX.C13_matches"
   ],
   "note": "Exact matching (no properties filter), any number of earlier witnesses; goes through suffix array, LCP intervals and blocks."
  },
  {
   "property": "C14",
   "status": "proved",
   "theorems": [
    "CollateX.C14_optimal"
   ],
   "note": "For every cube without entries in row -1, which C13 shows for every cube the aligner builds."
  },
  {
   "property": "C15",
   "status": "proved",
   "theorems": [
    "CollateX.C15_traceback"
   ],
   "note": "Any fuel of at least rows + columns gives the same result, so the Python loop terminates."
  },
  {
   "property": "C16",
   "status": "proved",
   "theorems": [
    "CollateX.C16_equal_tokens"
   ],
   "note": "Exact matching, any properties filter, with or without segmentation unless stated; every topological sort; sigla non-empty (see C46) and input Valid (at least one witness, none empty, distinct sigla, no token string equal to a separator)."
  },
  {
   "property": "C17",
   "status": "proved",
   "theorems": [
    "CollateX.C17_acyclic"
   ],
   "note": "Exact matching, any properties filter, with or without segmentation unless stated; every topological sort; sigla non-empty (see C46) and input Valid (at least one witness, none empty, distinct sigla, no token string equal to a separator)."
  },
  {
   "property": "C18",
   "status": "proved",
   "theorems": [
    "CollateX.C18_C50_witness_paths"
   ],
   "note": "Exact matching, any properties filter, with or without segmentation unless stated; every topological sort; sigla non-empty (see C46) and input Valid (at least one witness, none empty, distinct sigla, no token string equal to a separator)."
  },
  {
   "property": "C19",
   "status": "proved",
   "theorems": [
    "CollateX.C19_token_once",
    "CollateX.C19_vertex_tokens"
   ],
   "note": "Exact matching, any properties filter, with or without segmentation unless stated; every topological sort; sigla non-empty (see C46) and input Valid (at least one witness, none empty, distinct sigla, no token string equal to a separator)."
  },
  {
   "property": "C20",
   "status": "proved",
   "theorems": [
    "CollateX.C20_rank_is_longest_path",
    "CollateX.C20_edges_increase",
    "CollateX.C20_order_independent",
    "CollateX.C20_of_collation"
   ],
   "note": "Every acyclic graph, every topological order; C20_of_collation: for the ranking that collate uses, walks from the start vertex."
  },
  {
   "property": "C21",
   "status": "proved",
   "theorems": [
    "CollateX.C21_ranks_in_order",
    "CollateX.C21_of_collation"
   ],
   "note": "Every acyclic graph, every topological order; C21_of_collation: for the ranking and the table of collate (ranks end at the end vertex, column j is rank j+1)."
  },
  {
   "property": "C22",
   "status": "proved",
   "theorems": [
    "CollateX.C22_join_preserves"
   ],
   "note": "Exact matching, any properties filter, with or without segmentation unless stated; every topological sort; sigla non-empty (see C46) and input Valid (at least one witness, none empty, distinct sigla, no token string equal to a separator)."
  },
  {
   "property": "C23",
   "status": "proved",
   "theorems": [
    "CollateX.C23_join_terminates"
   ],
   "note": "Exact matching, any properties filter, with or without segmentation unless stated; every topological sort; sigla non-empty (see C46) and input Valid (at least one witness, none empty, distinct sigla, no token string equal to a separator). Termination = from some number of iterations on the fuelled loop returns the same graph."
  },
  {
   "property": "C24",
   "status": "proved",
   "theorems": [
    "CollateX.C24_segmentation_maximal_uniform"
   ],
   "note": "Exact matching, any properties filter, with or without segmentation unless stated; every topological sort; sigla non-empty (see C46) and input Valid (at least one witness, none empty, distinct sigla, no token string equal to a separator)."
  },
  {
   "property": "C25",
   "status": "proved",
   "theorems": [
    "CollateX.C25_table_lossless"
   ],
   "note": "Exact matching, any properties filter, with and without segmentation; every topological sort; sigla non-empty (see C46) and input Valid."
  },
  {
   "property": "C26",
   "status": "proved",
   "theorems": [
    "CollateX.C26_table_shape"
   ],
   "note": "Exact matching, any properties filter, with and without segmentation; every topological sort; sigla non-empty (see C46) and input Valid."
  },
  {
   "property": "C27",
   "status": "proved",
   "theorems": [
    "CollateX.C27_invariant_columns",
    "CollateX.C27_variant_iff"
   ],
   "note": "Exact matching, any properties filter, with and without segmentation; every topological sort; sigla non-empty (see C46) and input Valid. C27_variant_iff says exactly when a column is marked variant."
  },
  {
   "property": "C28",
   "status": "proved",
   "theorems": [
    "CollateX.C28_collate_succeeds"
   ],
   "note": "Exact matching, any properties filter, with or without segmentation unless stated; every topological sort; sigla non-empty (see C46) and input Valid (at least one witness, none empty, distinct sigla, no token string equal to a separator). (Sigla may be empty here.)"
  },
  {
   "property": "C29",
   "status": "proved",
   "theorems": [
    "CollateX.C29_identical_witnesses"
   ],
   "note": "Rows, columns and variant flags exactly; for both segmentation settings; without properties filter (a filter may reject equal tokens)."
  },
  {
   "property": "C30",
   "status": "proved",
   "theorems": [
    "CollateX.C30_single_witness"
   ],
   "note": "With any properties filter."
  },
  {
   "property": "C31",
   "status": "proved",
   "theorems": [
    "CollateX.C31_column_bounds"
   ],
   "note": "Exact matching, any properties filter, with and without segmentation; every topological sort; sigla non-empty (see C46) and input Valid."
  },
  {
   "property": "C32",
   "status": "proved",
   "theorems": [
    "CollateX.C32_near_segmentation"
   ],
   "note": ""
  },
  {
   "property": "C33",
   "status": "proved",
   "theorems": [
    "CollateX.C33_near_matching",
    "CollateX.C33_table"
   ],
   "note": "Near matching never raises, keeps ranks consistent, and leaves longest start-end paths where they are; any number of witnesses, any similarity function."
  },
  {
   "property": "C34",
   "status": "partial",
   "theorems": [
    "CollateX.C34_two_witnesses_partial",
    "CollateX.C34_three_witnesses",
    "CollateX.C34_row_iff"
   ],
   "note": "False for three witnesses (C34_three_witnesses proves the negation on a concrete collation); proved for at most two witnesses and any similarity function. For any number of witnesses C34_row_iff says exactly when a row is complete: if and only if the columns of the vertices of its witness increase."
  },
  {
   "property": "C35",
   "status": "proved",
   "theorems": [
    "CollateX.C35_json",
    "CollateX.C35_json_of_collation"
   ],
   "note": "Model of the exporters up to the list handed to json.dumps. GoodTable is what every table of a collation satisfies (goodTable_of); C35_json_of_collation states it for collate itself."
  },
  {
   "property": "C36",
   "status": "proved",
   "theorems": [
    "CollateX.C36_csv_reads_back",
    "CollateX.C36_csv_of_collation",
    "CollateX.C36_line_ends"
   ],
   "note": "csv.writer and StringIO(newline=None) are modelled; the reader is a separate small specification (Spec.readCsv). None and the empty string read back the same. C36_line_ends is for every table; the other two say that texts without carriage returns are read back unchanged."
  },
  {
   "property": "C37",
   "status": "proved",
   "theorems": [
    "CollateX.C37_xml",
    "CollateX.C37_xml_of_collation"
   ],
   "note": "Up to the tree handed to ElementTree."
  },
  {
   "property": "C38",
   "status": "proved",
   "theorems": [
    "CollateX.C38_tei_partition",
    "CollateX.C38_blank_in_siglum"
   ],
   "note": "Up to the tree handed to minidom. C38_blank_in_siglum: with a blank in a siglum the wit attribute is ambiguous, so the proviso is needed."
  },
  {
   "property": "C39",
   "status": "proved",
   "theorems": [
    "CollateX.C39_tei_text",
    "CollateX.C39_tei_text_of_row"
   ],
   "note": "Assumes only that a blank counts as white space. C39_tei_text also shows that the TEI export of a valid collation succeeds."
  },
  {
   "property": "C40",
   "status": "partial",
   "theorems": [
    "CollateX.C40_words_run_together",
    "CollateX.C40_separator_partial"
   ],
   "note": "False as stated: core_functions.py compares with the raw strings r'\\u0009' and r'\\000a', so no separator follows a tab or a line feed (C40_words_run_together). Partial: a separator follows exactly the columns in which some reading ends in a blank or in one of those literal texts."
  },
  {
   "property": "C41",
   "status": "proved",
   "theorems": [
    "CollateX.C41_unknown_format_no_result",
    "CollateX.C41_unknown_format",
    "CollateX.C41_known_formats"
   ],
   "note": ""
  },
  {
   "property": "C42",
   "status": "proved",
   "theorems": [
    "CollateX.C42_repeatable",
    "CollateX.C42_repeatable_after_exception"
   ],
   "note": ""
  },
  {
   "property": "C43",
   "status": "partial",
   "theorems": [
    "CollateX.C43_single_witness_partial",
    "CollateX.C43_astar_raises",
    "CollateX.C43_transpositions_raise",
    "CollateX.C43_options_do_not_work"
   ],
   "note": "The options do not work: astar always raises TypeError, detect_transpositions raises AttributeError for two or more witnesses. Only the single witness case of the full claim holds."
  },
  {
   "property": "C44",
   "status": "partial",
   "theorems": [
    "CollateX.C44_filter_partial",
    "CollateX.C44_reject_all_partial",
    "CollateX.C44_filter_not_respected",
    "CollateX.C44_segmented_partial",
    "CollateX.C44_near_partial",
    "CollateX.C44_no_common_pair_partial",
    "CollateX.C44_sorting_partial"
   ],
   "note": "The full claim is false: C44_filter_not_respected is a collation of two witnesses whose tokens share a vertex although the filter rejects them. C44_filter_partial (no segmentation), C44_segmented_partial (with or without) and C44_near_partial (near matching) state what is asked of the filter: the token together with the first token of the matched passage in one of the earlier witnesses. C44_no_common_pair_partial: two witnesses without two neighbouring words in common respect the filter. C44_sorting_partial: so do any number of such witnesses if the filter is symmetric and transitive. C44_reject_all_partial: a filter that rejects everything keeps the witnesses apart. Missing: that the filter is asked about the two tokens themselves, and about every witness on the vertex."
  },
  {
   "property": "C45",
   "status": "partial",
   "theorems": [
    "CollateX.C45_plain_text_partial",
    "CollateX.C45_separator_collides"
   ],
   "note": "The full claim is false: C45_separator_collides. C45_plain_text_partial: it holds for all plain-text witnesses (assuming that a dollar sign is no word character and digits are). Missing: pre-tokenised witnesses, for which it fails."
  },
  {
   "property": "C46",
   "status": "partial",
   "theorems": [
    "CollateX.C46_table_lossless_partial",
    "CollateX.C46_empty_siglum_lost"
   ],
   "note": "The full claim is false for the empty siglum: C46_empty_siglum_lost. C46_table_lossless_partial: it holds for each witness whose own siglum is not empty."
  },
  {
   "property": "C47",
   "status": "partial",
   "theorems": [
    "CollateX.C47_find_exact_partial",
    "CollateX.C47_single_token"
   ],
   "note": "Proved for every text that is not a single token; false for one-token texts (C47_single_token), because the suffix array of a one-token text is [1]."
  },
  {
   "property": "C48",
   "status": "partial",
   "theorems": [
    "CollateX.C48_contiguous",
    "CollateX.C48_print_parse_partial",
    "CollateX.C48_parse_iff",
    "CollateX.C48_patterns",
    "CollateX.C48_empty_set",
    "CollateX.C48_plus",
    "CollateX.C48_spaces",
    "CollateX.C48_no_space"
   ],
   "note": "The contiguous ranges are characterised for every set. Printing and parsing back, with the padding that is recognised, is proved for the printable sets (not empty, no element above 1e100, no 10^9 consecutive elements) and C48_parse_iff shows that for every other set the parser raises; C48_empty_set is the negation. C48_patterns: what a list of patterns with steps is read as."
  },
  {
   "property": "C49",
   "status": "proved",
   "theorems": [
    "CollateX.C49_real_path",
    "CollateX.C49_least_cost",
    "CollateX.C49_finds_path"
   ],
   "note": "Every returned path is real; with a consistent heuristic it has least cost; on a finite graph the search ends and finds a path exactly if there is one."
  },
  {
   "property": "C50",
   "status": "proved",
   "theorems": [
    "CollateX.C18_C50_witness_paths"
   ],
   "note": "Exact matching, any properties filter, with or without segmentation unless stated; every topological sort; sigla non-empty (see C46) and input Valid (at least one witness, none empty, distinct sigla, no token string equal to a separator)."
  },
  {
   "property": "C51",
   "status": "proved",
   "theorems": [
    "CollateX.C51_vertex_label"
   ],
   "note": "Exact matching, any properties filter, with or without segmentation unless stated; every topological sort; sigla non-empty (see C46) and input Valid (at least one witness, none empty, distinct sigla, no token string equal to a separator)."
  },
  {
   "property": "C52",
   "status": "proved",
   "theorems": [
    "CollateX.C52_omissions"
   ],
   "note": "For every such witness list, with and without segmentation; also: without segmentation one column per token of the first witness."
  },
  {
   "property": "C53",
   "status": "partial",
   "theorems": [
    "CollateX.C53_additions_partial",
    "CollateX.C53_repeats"
   ],
   "note": "False for witnesses with equal neighbouring tokens (C53_repeats proves the negation on a concrete collation); proved for witnesses without equal neighbours."
  },
  {
   "property": "C54",
   "status": "proved",
   "theorems": [
    "CollateX.C54_order_irrelevant"
   ],
   "note": "For all functions that return some topological order; the similarity measure is irrelevant as well."
  },
  {
   "property": "C55",
   "status": "proved",
   "theorems": [
    "CollateX.C55_nothing_invented"
   ],
   "note": "Any number of witnesses. Losing a token is possible (C34); duplicating, misattributing or inventing one is not."
  },
  {
   "property": "C56",
   "status": "proved",
   "theorems": [
    "CollateX.C56_most_similar"
   ],
   "note": "At most two witnesses, as the property says; with three the ranks of a path need not even grow (C34)."
  },
  {
   "property": "C57",
   "status": "partial",
   "theorems": [
    "CollateX.C57_spelling_partial",
    "CollateX.C57_two_witnesses",
    "CollateX.C57_spelling_can_matter",
    "CollateX.C57_three_witnesses"
   ],
   "note": "False in general (C57_spelling_can_matter, a concrete pair of inputs with five witnesses). Proved for all inputs in which no collation of a proper beginning of the witness list has two vertices with one reading on one rank, which holds for any two witnesses (C57_two_witnesses). Missing: inputs with such twins that happen to be unaffected, and properties filters. Three witnesses of which the second has no equal neighbours need no condition either (C57_three_witnesses)."
  },
  {
   "property": "C58",
   "status": "proved",
   "theorems": [
    "CollateX.C58_sigla_are_labels"
   ],
   "note": "Exact matching, with or without segmentation and with any properties filter; sigla non-empty and distinct."
  },
  {
   "property": "C59",
   "status": "partial",
   "theorems": [
    "CollateX.C59_beginning_partial",
    "CollateX.C59_first_two",
    "CollateX.C59_later_witness_can_matter",
    "CollateX.C59_first_three"
   ],
   "note": "Proved if no collation of fewer than n (two or more) of the first witnesses has two vertices with the same reading on one rank, no properties filter, segmentation off (graph level); unconditional for the first two witnesses. False in general: C59_later_witness_can_matter. The first three need none either if the second has no equal neighbours (C59_first_three)."
  },
  {
   "property": "C60",
   "status": "partial",
   "theorems": [
    "CollateX.C60_printed_table",
    "CollateX.C60_text_partial",
    "CollateX.C60_hyphen_or_gap"
   ],
   "note": "Both layouts are proved to show the texts; the claim that '-' marks exactly the empty cells is false for texts with '-' (C60_hyphen_or_gap) and proved without them."
  },
  {
   "property": "C61",
   "status": "partial",
   "theorems": [
    "CollateX.C61_html2_partial",
    "CollateX.C61_markup_not_escaped"
   ],
   "note": "Proved for texts and sigla without '<'; false otherwise, since nothing is escaped (C61_markup_not_escaped)."
  },
  {
   "property": "C62",
   "status": "partial",
   "theorems": [
    "CollateX.C62_drawing_partial",
    "CollateX.C62_ampersand"
   ],
   "note": "Nodes, edges, near-match edges, groups and the grouping of witnesses are proved without restriction; that a witness stands beside its own reading is proved for readings without '&' and false otherwise (C62_ampersand)."
  },
  {
   "property": "C63",
   "status": "partial",
   "theorems": [
    "CollateX.C63_column_styles_partial",
    "CollateX.C63_repeated_text"
   ],
   "note": "Proved for rows of pairwise different items, for all five column attributes, texts and cell objects, row lists and table lists; false for repeated texts (C63_repeated_text)."
  },
  {
   "property": "C64",
   "status": "proved",
   "theorems": [
    "CollateX.C64_nothing_new",
    "CollateX.C64_copy_elsewhere"
   ],
   "note": "Any valid witnesses, with and without segmentation; a copy need not be aligned with its own original (C64_copy_elsewhere)."
  },
  {
   "property": "C65",
   "status": "partial",
   "theorems": [
    "CollateX.C65_best_partial",
    "CollateX.C65_either_order_partial",
    "CollateX.C65_repeats",
    "CollateX.C65_not_most_agreements"
   ],
   "note": "Proved if the second witness has no equal neighbouring tokens, with independence of the order as a consequence; false in general (C65_repeats). Maximal agreement, a stronger claim, is false even then (C65_not_most_agreements)."
  },
  {
   "property": "C66",
   "status": "proved",
   "theorems": [
    "CollateX.C66_grouping",
    "CollateX.C66_columns_differ"
   ],
   "note": "The graphs of the two runs have the same tokens at the same places; the number of columns does not grow. A column of the segmented table can hold tokens from different columns of the other (witness)."
  },
  {
   "property": "C67",
   "status": "partial",
   "theorems": [
    "CollateX.C67_counts_partial",
    "CollateX.C67_ranges_miss_last",
    "CollateX.C67_not_all_occurrences"
   ],
   "note": "Frequency and depth count the instances and their witnesses, never more than the text occurs; some block with the same text counts all. False in general: closing a longer interval opens a second one of the same length that misses the occurrences before it. The list of ranges always misses the last occurrence."
  },
  {
   "property": "C68",
   "status": "proved",
   "theorems": [
    "CollateX.C68_cheapest_script",
    "CollateX.C68_heuristic_not_admissible",
    "CollateX.C68_empty_text"
   ],
   "note": ""
  },
  {
   "property": "C69",
   "status": "partial",
   "theorems": [
    "CollateX.C69_alignment_partial",
    "CollateX.C69_superbase_partial",
    "CollateX.C69_two_on_one",
    "CollateX.C69_superbase_loses"
   ],
   "note": "Proved: a partial function on the second text, only full matches, no crossings, every full match of the path is aligned; the superbase consists of tokens of the two texts and contains each, up to its last token, in order. Not true of the code: injectivity (C69_two_on_one) and a complete superbase (C69_superbase_loses)."
  },
  {
   "property": "C70",
   "status": "partial",
   "theorems": [
    "CollateX.C70_found",
    "CollateX.C70_reads_last",
    "CollateX.C70_one_phrase_partial",
    "CollateX.C70_phrases_lost"
   ],
   "note": "Proved: the phrases found are exactly the maximal runs (C70_found), and what is returned if there is at most one phrase and the last token is linked. In general every returned phrase reads as the last one (C70_reads_last, C70_phrases_lost)."
  },
  {
   "property": "C71",
   "status": "partial",
   "theorems": [
    "CollateX.C71_folded",
    "CollateX.C71_progression",
    "CollateX.C71_unfolded",
    "CollateX.C71_default",
    "CollateX.C71_print_parse_partial",
    "CollateX.C71_too_far"
   ],
   "note": "The slices are characterised for every set and every autostep. Printing and parsing back is proved for non-empty sets with no element above 1e100 and no two elements 10^9 apart; C71_too_far shows that the last condition is needed."
  },
  {
   "property": "C72",
   "status": "proved",
   "theorems": [
    "CollateX.C72_dumps",
    "CollateX.C72_json_text"
   ],
   "note": "Any value of dicts, lists, strings, integers, booleans and null; entries of dicts up to order; opaque token fields are a parameter."
  },
  {
   "property": "C73",
   "status": "partial",
   "theorems": [
    "CollateX.C73_xml",
    "CollateX.C73_xml_wellformed",
    "CollateX.C73_xml_of_collation",
    "CollateX.C73_tei",
    "CollateX.C73_tei_wellformed",
    "CollateX.C73_tei_readings",
    "CollateX.C73_tei_text",
    "CollateX.C73_tei_exact_partial",
    "CollateX.C73_tei_of_collation",
    "CollateX.C73_pretty_changes_text",
    "CollateX.C73_control_character"
   ],
   "note": "Read by the XML reader of Spec/Xml. False for control characters (C73_control_character) and, with indentation, for texts without white space (C73_pretty_changes_text). Proved: well-formed exactly if all characters are allowed; readings exact up to line ends; texts exact without indentation, and up to white space with it."
  },
  {
   "property": "C74",
   "status": "proved",
   "theorems": [
    "CollateX.C74_only_strings_matter",
    "CollateX.C74_filter_sees_what_matters",
    "CollateX.C74_near",
    "CollateX.C74_filter_sees_fields"
   ],
   "note": "Layout for exact matching with and without a filter, cells for near matching. The negation without the hypothesis on the filter is C74_filter_sees_fields."
  },
  {
   "property": "C75",
   "status": "proved",
   "theorems": [
    "CollateX.C75_collate_again",
    "CollateX.C75_text_again",
    "CollateX.C75_near_output_differs"
   ],
   "note": "Exact matching, horizontal layout. With near matching it is false (tokens may be missing from the output, C34): C75_near_output_differs."
  },
  {
   "property": "C76",
   "status": "proved",
   "theorems": [
    "CollateX.C76_nothing_in_common",
    "CollateX.C76_reject_all"
   ],
   "note": "Both for witnesses without a common string and for a filter that accepts nothing, with and without segmentation."
  },
  {
   "property": "C77",
   "status": "partial",
   "theorems": [
    "CollateX.C77_variant_iff_differ_partial",
    "CollateX.C77_repeats",
    "CollateX.C77_three",
    "CollateX.C77_segmented"
   ],
   "note": "Two witnesses, the second without equal neighbours; the general statement is false (C77_repeats, C77_three; with the default options for four witnesses without repeated words, C77_segmented)."
  },
  {
   "property": "C78",
   "status": "partial",
   "theorems": [
    "CollateX.C78_common_ending_partial",
    "CollateX.C78_segmented_partial",
    "CollateX.C78_repeats",
    "CollateX.C78_beginning"
   ],
   "note": "The full claim is false (C78_repeats); proved for endings of which no later witness has a word twice in a row, with and without segmentation."
  },
  {
   "property": "C79",
   "status": "partial",
   "theorems": [
    "CollateX.C79_rest_in_order_partial",
    "CollateX.C79_none_iff_partial",
    "CollateX.C79_swap_partial",
    "CollateX.C79_found_phrases",
    "CollateX.C79_python3",
    "CollateX.C79_not_minimal"
   ],
   "note": "Under Python 3 the full claim is false (C79_python3: any phrase is a TypeError). The _partial theorems are the behaviour under Python 2.7, for all lists of phrases as PhraseMatchDetector finds them (C79_found_phrases). C79_not_minimal shows that more phrases than necessary can be reported."
  },
  {
   "property": "C80",
   "status": "proved",
   "theorems": [
    "CollateX.C80_no_needless_gap",
    "CollateX.C80_groups_differ",
    "CollateX.C80_not_both_unanimous",
    "CollateX.C80_gap_after",
    "CollateX.C80_near"
   ],
   "note": "Exact matching with any filter. C80_gap_after and C80_near show that the mirror image and near matching are different."
  },
  {
   "property": "C81",
   "status": "partial",
   "theorems": [
    "CollateX.C81_right_answers_partial",
    "CollateX.C81_raises_iff",
    "CollateX.C81_never_matches",
    "CollateX.C81_near",
    "CollateX.C81_fails"
   ],
   "note": "False of the code for witnesses with equal tokens: C81_raises_iff characterises exactly when the scorer raises, C81_fails is a witness. The partial theorem covers witnesses without equal tokens; C81_never_matches and C81_near give all answers there."
  },
  {
   "property": "C82",
   "status": "partial",
   "theorems": [
    "CollateX.C82_new_partial",
    "CollateX.C82_new_python2",
    "CollateX.C82_in_place",
    "CollateX.C82_single",
    "CollateX.C82_from_list",
    "CollateX.C82_comparisons",
    "CollateX.C82_strict",
    "CollateX.C82_python3",
    "CollateX.C82_constructor_loses",
    "CollateX.C82_two_unions",
    "CollateX.C82_equal_not_same_text",
    "CollateX.C82_striter",
    "CollateX.C82_constructor"
   ],
   "note": "Union and symmetric difference raise under Python 3 (C82_python3); everything else holds under both versions, and C82_new_python2 covers Python 2.7."
  },
  {
   "property": "C83",
   "status": "partial",
   "theorems": [
    "CollateX.C83_split_partial",
    "CollateX.C83_get_item",
    "CollateX.C83_contiguous",
    "CollateX.C83_python3",
    "CollateX.C83_split_limits"
   ],
   "note": "split raises TypeError under Python 3 (C83_python3); C83_split_partial is for Python 2.7. Indexing and contiguous hold as stated."
  },
  {
   "property": "C84",
   "status": "partial",
   "theorems": [
    "CollateX.C84_pickle_partial",
    "CollateX.C84_iff",
    "CollateX.C84_empty"
   ],
   "note": "False for the empty set (C84_empty) and for distant numbers; C84_iff is the exact condition without autostep."
  },
  {
   "property": "C85",
   "status": "partial",
   "theorems": [
    "CollateX.C85_common_opening_partial",
    "CollateX.C85_segmented_partial",
    "CollateX.C85_again_later",
    "CollateX.C85_again_first"
   ],
   "note": "Proved for every common opening of which each witness has each word once, without segmentation (C85_common_opening_partial) and with it (C85_segmented_partial). The full claim is false: C85_again_later and C85_again_first."
  },
  {
   "property": "C86",
   "status": "proved",
   "theorems": [
    "CollateX.C86_tokens",
    "CollateX.C86_only_spaces_lost",
    "CollateX.C86_text_back",
    "CollateX.C86_exact",
    "CollateX.C86_bytes",
    "CollateX.C86_characters",
    "CollateX.C86_spaces"
   ],
   "note": "The claims about words and bytes hold as stated; C86_characters and C86_spaces show what is false: UNIT_CHARACTER raises under Python 3, and texts with other spaces do not come back as they were."
  },
  {
   "property": "C87",
   "status": "partial",
   "theorems": [
    "CollateX.C87_feature_partial",
    "CollateX.C87_feature_later_partial",
    "CollateX.C87_find_with",
    "CollateX.C87_add_feature",
    "CollateX.C87_str_partial",
    "CollateX.C87_first_suffix",
    "CollateX.C87_str_start",
    "CollateX.C87_arguments",
    "CollateX.C87_without_lcp",
    "CollateX.C87_add_feature_sa"
   ],
   "note": "Proved for features of addFeatureSA and for find with features; for addFeature if the first suffix does not begin with the pattern. The rest is false: C87_first_suffix, C87_str_start, C87_arguments, C87_without_lcp."
  },
  {
   "property": "C88",
   "status": "proved",
   "theorems": [
    "CollateX.C88_same_answers",
    "CollateX.C88_accept_all"
   ],
   "note": "The filter is an arbitrary pure function of the two token records (see DESIGN §2); the pairs are those of a later and an earlier witness."
  },
  {
   "property": "C89",
   "status": "partial",
   "theorems": [
    "CollateX.C89_json",
    "CollateX.C89_csv",
    "CollateX.C89_xml",
    "CollateX.C89_tei",
    "CollateX.C89_two_witnesses_partial",
    "CollateX.C89_three_witnesses"
   ],
   "note": "The outputs show the table cell by cell for any number of witnesses (C89_json, C89_csv, C89_xml, C89_tei); they carry the whole text of each witness for at most two witnesses (C89_two_witnesses_partial), and lose text for three (C89_three_witnesses)."
  },
  {
   "property": "C90",
   "status": "proved",
   "theorems": [
    "CollateX.C90_json",
    "CollateX.C90_json_vertical",
    "CollateX.C90_csv",
    "CollateX.C90_xml",
    "CollateX.C90_tei"
   ],
   "note": "End to end, from the texts to the output text and back; the readers are those of C36, C72 and C73. Assumed of the character classes: a dollar sign is no word character, digits are (and for TEI that blank, tab and line ends are white space)."
  },
  {
   "property": "C91",
   "status": "partial",
   "theorems": [
    "CollateX.C91_load_partial",
    "CollateX.C91_other_names",
    "CollateX.C91_first_suffix"
   ],
   "note": "Pickle and gzip are taken to give back what was written. The claim that the loaded array behaves like the saved one is false (C91_first_suffix), as is the docstring's that any file name is accepted (C91_other_names)."
  },
  {
   "property": "C92",
   "status": "proved",
   "theorems": [
    "CollateX.C92_segmentation_merges_runs",
    "CollateX.C92_three"
   ],
   "note": "Exact matching, two witnesses, sigla other than the empty string; with any filter. For three witnesses neighbouring variant columns can remain (C92_three)."
  },
  {
   "property": "C93",
   "status": "partial",
   "theorems": [
    "CollateX.C93_one_variant_partial",
    "CollateX.C93_single_change_partial",
    "CollateX.C93_repeats",
    "CollateX.C93_added_at_end"
   ],
   "note": "Proved if no two neighbouring tokens of the second witness are equal; the place of the change also if it is an omission from a first witness without equal neighbours. False otherwise: 'a x' and 'a a' (C93_repeats), 'b b' and 'b b a' (C93_added_at_end). Exact matching, no filter."
  },
  {
   "property": "C94",
   "status": "proved",
   "theorems": [
    "CollateX.C94_same_block",
    "CollateX.C94_occurrences",
    "CollateX.C94_repeatedText",
    "CollateX.C94_different_words"
   ],
   "note": "Blocks are any non-empty list of range sets without common positions. The scorer itself never computes blocks (C81); this is about the code that uses them."
  },
  {
   "property": "C95",
   "status": "proved",
   "theorems": [
    "CollateX.C95_items",
    "CollateX.C95_injective",
    "CollateX.C95_again",
    "CollateX.C95_start",
    "CollateX.C95_limits",
    "CollateX.C95_apart",
    "CollateX.C95_link",
    "CollateX.C95_link_quotation",
    "CollateX.C95_start_shown"
   ],
   "note": "Lists and links of HTML.py; the limits are proved by example."
  },
  {
   "property": "C96",
   "status": "proved",
   "theorems": [
    "CollateX.C96_texts",
    "CollateX.C96_xml",
    "CollateX.C96_printed",
    "CollateX.C96_always",
    "CollateX.C96_example"
   ],
   "note": "The svg drawing and the html output are covered by C62 and C60; the printed table is the horizontal one."
  },
  {
   "property": "C97",
   "status": "partial",
   "theorems": [
    "CollateX.C97_common_passage_partial",
    "CollateX.C97_opening_long",
    "CollateX.C97_ending_long",
    "CollateX.C97_short",
    "CollateX.C97_short_same_place"
   ],
   "note": "Proved for passages that are more than half as long as the shorter of what stands before them in one text and after them in the other (always so at the beginning and at the end of both texts), second witness without equal neighbours. The full claim is false: C97_short shows that the bound is sharp, C97_short_same_place a common word in the same place of both texts that is not aligned."
  },
  {
   "property": "C98",
   "status": "proved",
   "theorems": [
    "CollateX.C98_near_weights",
    "CollateX.C98_same_column",
    "CollateX.C98_three"
   ],
   "note": "Near matching with weights; the labels of the dashed lines are the ratios. The same column for at most two witnesses; counterexample for three."
  },
  {
   "property": "C99",
   "status": "proved",
   "theorems": [
    "CollateX.C99_place_by_place",
    "CollateX.C99_any_order",
    "CollateX.C99_moved",
    "CollateX.C99_segmented",
    "CollateX.C99_near_matching"
   ],
   "note": "any number of witnesses; also with near matching (C99_near_matching), which then changes nothing; negations for moved words and with segmentation"
  }
 ]
}
