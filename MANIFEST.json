{
 "claims": [
  {
   "property": "C01",
   "status": "proved",
   "theorems": [
    "GB.C01_roundtrip",
    "GB.C01_roundtrip_nodes"
   ],
   "note": ""
  },
  {
   "property": "C02",
   "status": "proved",
   "theorems": [
    "GB.C02_text_injective",
    "GB.C02_nodes_injective"
   ],
   "note": ""
  },
  {
   "property": "C03",
   "status": "proved",
   "theorems": [
    "GB.C03_split_edge",
    "GB.C03_split_nodes",
    "GB.C03_nodes_edge_first_false"
   ],
   "note": ""
  },
  {
   "property": "C04",
   "status": "proved",
   "theorems": [
    "GB.C04_parser_total",
    "GB.C04_recursion",
    "GB.C04_decreasing"
   ],
   "note": ""
  },
  {
   "property": "C05",
   "status": "proved",
   "theorems": [
    "GB.C05_integer",
    "GB.C05_double",
    "GB.C05_string",
    "GB.C05_int_roundtrip"
   ],
   "note": ""
  },
  {
   "property": "C06",
   "status": "proved",
   "theorems": [
    "GB.C06_involution",
    "GB.C06_flips",
    "GB.C06_of_positive",
    "GB.C06_edges",
    "GB.C06_edge_first",
    "GB.C06_number_first",
    "GB.C06_edge_isNegative"
   ],
   "note": "As worded after analysis: involution and flip exactly outside the '~'-prefix exceptions; the exceptions are proved too."
  },
  {
   "property": "C07",
   "status": "proved",
   "theorems": [
    "GB.C07_build_parts",
    "GB.C07_parts_build",
    "GB.C07_root_nspace",
    "GB.C07_is_root",
    "GB.C07_atoms",
    "GB.C07_url_exception"
   ],
   "note": ""
  },
  {
   "property": "C08",
   "status": "proved",
   "theorems": [
    "GB.C08_separator_free",
    "GB.C08_pointwise",
    "GB.C08_own_root",
    "GB.C08_idempotent",
    "GB.C08_not_safe"
   ],
   "note": ""
  },
  {
   "property": "C09",
   "status": "proved",
   "theorems": [
    "GB.C09_hashed",
    "GB.C09_hashed_eq_iff",
    "GB.C09_new_meaning",
    "GB.C09_new_meaning_safe",
    "GB.C09_new_meaning_nonroot"
   ],
   "note": ""
  },
  {
   "property": "C10",
   "status": "proved",
   "theorems": [
    "GB.C10_total",
    "GB.C10_complete",
    "GB.C10_lexicographic",
    "GB.C10_injective",
    "GB.C10_identity",
    "GB.C10_out_of_range"
   ],
   "note": ""
  },
  {
   "property": "C11",
   "status": "proved",
   "theorems": [
    "GB.C11_inverse"
   ],
   "note": ""
  },
  {
   "property": "C12",
   "status": "proved",
   "theorems": [
    "GB.C12_range_is_prefix",
    "GB.C12_defined_iff",
    "GB.C12_errors"
   ],
   "note": ""
  },
  {
   "property": "C13",
   "status": "proved",
   "theorems": [
    "GB.C13_exists",
    "GB.C13_literal"
   ],
   "note": ""
  },
  {
   "property": "C14",
   "status": "proved",
   "theorems": [
    "GB.C14_add_present",
    "GB.C14_add_twice"
   ],
   "note": ""
  },
  {
   "property": "C15",
   "status": "proved",
   "theorems": [
    "GB.C15_remove",
    "GB.C15_remove_absent"
   ],
   "note": ""
  },
  {
   "property": "C16",
   "status": "proved",
   "theorems": [
    "GB.C16_add_remove"
   ],
   "note": ""
  },
  {
   "property": "C17",
   "status": "proved",
   "theorems": [
    "GB.C17_pattern",
    "GB.C17_pattern_exists"
   ],
   "note": ""
  },
  {
   "property": "C18",
   "status": "partial",
   "theorems": [
    "GB.C18_wildcards_counterexample",
    "GB.C18_edge_first_partial",
    "GB.C18_never_counterexample",
    "GB.C18_raises_counterexample"
   ],
   "note": "False in general. Proved universally: all-wildcard patterns raise IndexError; for every graph, a pattern whose first given element is an edge never gives the right answer when the largest present edge with that element matches (it raises or lacks that edge), and it raises in the stated common case; the partial theorem covers edge-first patterns when no present edge contains that edge. Missing: nothing true remains (an example shows that outside these cases the answer can be right only by a misreading that happens to hit)."
  },
  {
   "property": "C19",
   "status": "proved",
   "theorems": [
    "GB.C19_star"
   ],
   "note": ""
  },
  {
   "property": "C20",
   "status": "partial",
   "theorems": [
    "GB.C20_absent_partial",
    "GB.C20_raises_counterexample",
    "GB.C20_never_counterexample",
    "GB.C20_right_iff",
    "GB.C20_wrong_counterexample"
   ],
   "note": "False in general. The exact condition is proved (C20_right_iff): the answer is right if and only if no present edge contains the edge asked for; otherwise the call raises or lacks an edge (C20_never_counterexample), universally raises in the common case, with a concrete wrong non-raising answer."
  },
  {
   "property": "C21",
   "status": "proved",
   "theorems": [
    "GB.C21_symbols",
    "GB.C21_symbols_root"
   ],
   "note": ""
  },
  {
   "property": "C22",
   "status": "proved",
   "theorems": [
    "GB.C22_degree",
    "GB.C22_finite",
    "GB.C22_degree_star"
   ],
   "note": ""
  },
  {
   "property": "C23",
   "status": "partial",
   "theorems": [
    "GB.C23_degree_partial",
    "GB.C23_added_later_counterexample",
    "GB.C23_removed_counterexample",
    "GB.C23_negative_counterexample"
   ],
   "note": "False in general. Proved for every vertex and every history in which the vertex is not created/removed while used as an element; universal counterexamples for the others. C85 gives the degree exactly for all histories."
  },
  {
   "property": "C24",
   "status": "proved",
   "theorems": [
    "GB.C24_symbol_kept",
    "GB.C24_symbol_first",
    "GB.C24_timestamp",
    "GB.C24_edge"
   ],
   "note": ""
  },
  {
   "property": "C25",
   "status": "proved",
   "theorems": [
    "GB.C25_destroy",
    "GB.C25_empty",
    "GB.C25_fresh"
   ],
   "note": ""
  },
  {
   "property": "C26",
   "status": "proved",
   "theorems": [
    "GB.C26_f_all",
    "GB.C26_known"
   ],
   "note": ""
  },
  {
   "property": "C27",
   "status": "proved",
   "theorems": [
    "GB.C27_add_many",
    "GB.C27_remove_many"
   ],
   "note": ""
  },
  {
   "property": "C28",
   "status": "proved",
   "theorems": [
    "GB.C28_order"
   ],
   "note": ""
  },
  {
   "property": "C29",
   "status": "proved",
   "theorems": [
    "GB.C29_no_error",
    "GB.C29_keys"
   ],
   "note": ""
  },
  {
   "property": "C30",
   "status": "proved",
   "theorems": [
    "GB.C30_pattern",
    "GB.C30_star",
    "GB.C30_sources"
   ],
   "note": ""
  },
  {
   "property": "C31",
   "status": "proved",
   "theorems": [
    "GB.C31_sources",
    "GB.C31_add_belief"
   ],
   "note": ""
  },
  {
   "property": "C32",
   "status": "proved",
   "theorems": [
    "GB.C32_remove_belief"
   ],
   "note": ""
  },
  {
   "property": "C33",
   "status": "proved",
   "theorems": [
    "GB.C33_remove_by_pattern",
    "GB.C33_any_order"
   ],
   "note": ""
  },
  {
   "property": "C34",
   "status": "proved",
   "theorems": [
    "GB.C34_batch",
    "GB.C34_batch_history"
   ],
   "note": ""
  },
  {
   "property": "C35",
   "status": "partial",
   "theorems": [
    "GB.C35_harmless",
    "GB.C35_last",
    "GB.C35_bulk",
    "GB.C35_asked",
    "GB.C35_asked_empty",
    "GB.C35_exact",
    "GB.C35_degree_counterexample",
    "GB.C35_forever_counterexample",
    "GB.C35_bulk_add_never",
    "GB.C35_last_partial"
   ],
   "note": "False in general: degree/timestamp close the shared cursor; a bulk add or batch inside a batch always ends in an error. Proved exactly (C35_exact): after any history a batch of any calls returns iff none is a bulk addition or a batch and only the last may ask for a vertex known at that moment; and what happens in all other cases (C35_bulk: everything is done and durable, AttributeError only at the end; C35_asked: exactly the calls before the question are done)."
  },
  {
   "property": "C36",
   "status": "proved",
   "theorems": [
    "GB.C36_bulk_add",
    "GB.C36_history",
    "GB.C36_batch",
    "GB.C36_mysql_counterexample",
    "GB.C36_batch_counterexample"
   ],
   "note": "Proved for connections without autocommit (SQLite), also inside histories and batches; MySQL autocommit and batches containing removals are proved counterexamples, outside the property's quantifier."
  },
  {
   "property": "C37",
   "status": "partial",
   "theorems": [
    "GB.C37_add_others_partial",
    "GB.C37_remove_others_partial",
    "GB.C37_repair_add_partial",
    "GB.C37_repair_remove_partial",
    "GB.C37_half_indexed_counterexample",
    "GB.C37_double_count_counterexample",
    "GB.C37_zombie_counterexample"
   ],
   "note": "False in general (three concrete counterexamples). Proved: other edges are unaffected at every crash point, degrees stay between, repeating the interrupted call repairs the index."
  },
  {
   "property": "C38",
   "status": "proved",
   "theorems": [
    "GB.C38_batch",
    "GB.C38_durable",
    "GB.C38_raising",
    "GB.C38_reopen"
   ],
   "note": ""
  },
  {
   "property": "C39",
   "status": "partial",
   "theorems": [
    "GB.C39_nothing_on_disk_partial",
    "GB.C39_recovery_partial",
    "GB.C39_counterexample"
   ],
   "note": "False in general (counterexample). Proved: nothing of the failed call reaches the disk at that point, and reopening recovers. C82 says exactly how later calls behave, and that batch_exec(()) repairs the session."
  },
  {
   "property": "C40",
   "status": "proved",
   "theorems": [
    "GB.C40_buffered",
    "GB.C40_nothing_lost"
   ],
   "note": ""
  },
  {
   "property": "C41",
   "status": "proved",
   "theorems": [
    "GB.C41_bound",
    "GB.C41_raising",
    "GB.C41_history"
   ],
   "note": ""
  },
  {
   "property": "C42",
   "status": "partial",
   "theorems": [
    "GB.C42_flush_partial",
    "GB.C42_empty_counterexample",
    "GB.C42_timestamp_counterexample"
   ],
   "note": "False in general: flushing an empty buffer raises, and timestamps are those of the flush (both proved universally). Proved: every non-empty buffer can be flushed."
  },
  {
   "property": "C43",
   "status": "proved",
   "theorems": [
    "GB.C43_null",
    "GB.C43_add",
    "GB.C43_no_error",
    "GB.C43_same_calls"
   ],
   "note": ""
  },
  {
   "property": "C44",
   "status": "partial",
   "theorems": [
    "GB.C44_ego_counterexample",
    "GB.C44_ego_partial",
    "GB.C44_ego_typeError_counterexample",
    "GB.C44_intersect_counterexample",
    "GB.C44_vemap_counterexample",
    "GB.C44_vemap_left_counterexample",
    "GB.C44_walks_counterexample",
    "GB.C44_walks_exact_counterexample"
   ],
   "note": "False in general: the neighbourhood functions raise in every non-trivial call, proved universally. The partial theorem covers depth 0."
  },
  {
   "property": "C45",
   "status": "proved",
   "theorems": [
    "GB.C45_shortest",
    "GB.C45_order",
    "GB.C45_valid"
   ],
   "note": ""
  },
  {
   "property": "C46",
   "status": "proved",
   "theorems": [
    "GB.C46_symbols_exact",
    "GB.C46_whitespace_exception",
    "GB.C46_floats_exact",
    "GB.C46_one_element",
    "GB.C46_empty_edge"
   ],
   "note": ""
  },
  {
   "property": "C47",
   "status": "proved",
   "theorems": [
    "GB.C47_commit_mode",
    "GB.C47_results",
    "GB.C47_disk"
   ],
   "note": ""
  },
  {
   "property": "C48",
   "status": "proved",
   "theorems": [
    "GB.C48_invisible",
    "GB.C48_still_absent"
   ],
   "note": ""
  },
  {
   "property": "C49",
   "status": "partial",
   "theorems": [
    "GB.C49_cli_partial",
    "GB.C49_mysql_counterexample",
    "GB.C49_unknown",
    "GB.C49_mysql"
   ],
   "note": "False for mysql from the command line (KeyError, proved). Proved: null and sqlite work from the command line, mysql with explicit parameters, other names raise RuntimeError."
  },
  {
   "property": "C50",
   "status": "proved",
   "theorems": [
    "GB.C50_contents",
    "GB.C50_sources",
    "GB.C50_clean",
    "GB.C50_pos_counterexample"
   ],
   "note": "Proved in full; the counterexample theorem concerns parts of speech that WordNet does not have, outside the quantifier."
  },
  {
   "property": "C51",
   "status": "proved",
   "theorems": [
    "GB.C51_to_list",
    "GB.C51_chunk_str"
   ],
   "note": ""
  },
  {
   "property": "C52",
   "status": "proved",
   "theorems": [
    "GB.C52_parse_text",
    "GB.C52_copy_unique"
   ],
   "note": ""
  },
  {
   "property": "C53",
   "status": "proved",
   "theorems": [
    "GB.C53_root",
    "GB.C53_words",
    "GB.C53_no_root"
   ],
   "note": ""
  },
  {
   "property": "C54",
   "status": "proved",
   "theorems": [
    "GB.C54_tree",
    "GB.C54_one_word"
   ],
   "note": ""
  },
  {
   "property": "C55",
   "status": "proved",
   "theorems": [
    "GB.C55_beta",
    "GB.C55_mark",
    "GB.C55_words",
    "GB.C55_twice"
   ],
   "note": ""
  },
  {
   "property": "C56",
   "status": "proved",
   "theorems": [
    "GB.C56_gamma",
    "GB.C56_words"
   ],
   "note": ""
  },
  {
   "property": "C57",
   "status": "proved",
   "theorems": [
    "GB.C57_delta"
   ],
   "note": ""
  },
  {
   "property": "C58",
   "status": "proved",
   "theorems": [
    "GB.C58_epsilon",
    "GB.C58_covers",
    "GB.C58_named",
    "GB.C58_raises"
   ],
   "note": ""
  },
  {
   "property": "C59",
   "status": "proved",
   "theorems": [
    "GB.C59_returns",
    "GB.C59_empty",
    "GB.C59_first",
    "GB.C59_unknown",
    "GB.C59_alpha",
    "GB.C59_after_epsilon",
    "GB.C59_outputs",
    "GB.C59_no_root"
   ],
   "note": ""
  },
  {
   "property": "C60",
   "status": "proved",
   "theorems": [
    "GB.C60_stages",
    "GB.C60_default"
   ],
   "note": ""
  },
  {
   "property": "C61",
   "status": "proved",
   "theorems": [
    "GB.C61_read_text",
    "GB.C61_no_root"
   ],
   "note": ""
  },
  {
   "property": "C62",
   "status": "proved",
   "theorems": [
    "GB.C62_choice"
   ],
   "note": ""
  },
  {
   "property": "C63",
   "status": "proved",
   "theorems": [
    "GB.C63_filter",
    "GB.C63_cut",
    "GB.C63_lines",
    "GB.C63_twice"
   ],
   "note": ""
  },
  {
   "property": "C64",
   "status": "proved",
   "theorems": [
    "GB.C64_merged",
    "GB.C64_tree",
    "GB.C64_missing",
    "GB.C64_no_root",
    "GB.C64_text"
   ],
   "note": ""
  },
  {
   "property": "C65",
   "status": "proved",
   "theorems": [
    "GB.C65_atomic",
    "GB.C65_terminates",
    "GB.C65_alone",
    "GB.C65_no_error",
    "GB.C65_any_time",
    "GB.C65_result",
    "GB.C65_adds",
    "GB.C65_add_remove_counterexample",
    "GB.C65_belief_counterexample"
   ],
   "note": "Proved for all schedules of the transactions of the modelled calls; the counterexample theorem concerns programs that remove edges others touch, outside the quantifier."
  },
  {
   "property": "C66",
   "status": "partial",
   "theorems": [
    "GB.C66_degree_partial",
    "GB.C66_lost_update_counterexample",
    "GB.C66_double_count_counterexample"
   ],
   "note": "False in general (two concrete schedules: a lost update of a new symbol, a double count of an edge added twice). Proved for symbols known before the processes start and programs without common edges (common symbols allowed)."
  },
  {
   "property": "C67",
   "status": "proved",
   "theorems": [
    "GB.C67_degree",
    "GB.C67_f_all",
    "GB.C67_edges",
    "GB.C67_never_too_much"
   ],
   "note": ""
  },
  {
   "property": "C68",
   "status": "partial",
   "theorems": [
    "GB.C68_same_partial",
    "GB.C68_additions",
    "GB.C68_stamps",
    "GB.C68_again_counterexample",
    "GB.C68_long_counterexample"
   ],
   "note": "False in general: re-adding an edge that is known with degree 0 and the same time stamp raises IntegrityError and leaves raised degrees (proved for all histories), and so do edges that agree in the first 250 characters (concrete). Proved: exact equality of runs for all histories whose edges fit into the keys and that meet none of these re-additions; in particular for histories without removals, and for histories that do not use a time stamp again after a removal."
  },
  {
   "property": "C69",
   "status": "proved",
   "theorems": [
    "GB.C69_killed",
    "GB.C69_degree",
    "GB.C69_shared_counterexample"
   ],
   "note": "Edges that killed programs work on are excluded from the claim; C69_shared_counterexample shows why: an edge two processes remove, one of them killed, can stay half indexed."
  },
  {
   "property": "C70",
   "status": "proved",
   "theorems": [
    "GB.C70_include",
    "GB.C70_interedge",
    "GB.C70_add_neighbours"
   ],
   "note": ""
  },
  {
   "property": "C71",
   "status": "proved",
   "theorems": [
    "GB.C71_found",
    "GB.C71_delta",
    "GB.C71_best",
    "GB.C71_rest",
    "GB.C71_itself",
    "GB.C71_fit",
    "GB.C71_default"
   ],
   "note": ""
  },
  {
   "property": "C72",
   "status": "proved",
   "theorems": [
    "GB.C72_same_program",
    "GB.C72_refines",
    "GB.C72_no_error",
    "GB.C72_any_time",
    "GB.C72_result",
    "GB.C72_degree",
    "GB.C72_killed",
    "GB.C72_terminates"
   ],
   "note": ""
  },
  {
   "property": "C73",
   "status": "proved",
   "theorems": [
    "GB.C73_all_or_nothing",
    "GB.C73_degrees",
    "GB.C73_add_list"
   ],
   "note": ""
  },
  {
   "property": "C74",
   "status": "proved",
   "theorems": [
    "GB.C74_same_program",
    "GB.C74_terminates",
    "GB.C74_alone",
    "GB.C74_order",
    "GB.C74_serial",
    "GB.C74_no_error",
    "GB.C74_result",
    "GB.C74_any_time",
    "GB.C74_new_symbol_counterexample",
    "GB.C74_same_edge_counterexample",
    "GB.C74_not_atomic_counterexample"
   ],
   "note": "Proved for all schedules of single statements. The counterexample theorems concern clients outside the quantifier (a common new symbol, the same edge) and atomicity, which the property does not claim."
  },
  {
   "property": "C75",
   "status": "proved",
   "theorems": [
    "GB.C75_opens",
    "GB.C75_again",
    "GB.C75_interrupted",
    "GB.C75_busy",
    "GB.C75_busy_counterexample",
    "GB.C75_concurrent",
    "GB.C75_concurrent_first",
    "GB.C75_sessions",
    "GB.C75_after_crash"
   ],
   "note": "Proved in full; the counterexample theorem is the stated exception: an opening whose statements all found the database busy returns although tables are missing. Files with further columns are not modelled."
  },
  {
   "property": "C76",
   "status": "proved",
   "theorems": [
    "GB.C76_same_calls",
    "GB.C76_lazy",
    "GB.C76_values",
    "GB.C76_late",
    "GB.C76_batch_alone",
    "GB.C76_batch_cut_counterexample",
    "GB.C76_batch_closed_counterexample",
    "GB.C76_batch_left_counterexample"
   ],
   "note": "The generator with its cursor, own or shared with every other call of a batch (unread rows, closing, a batch that ended). C76_same_calls: the reading methods written with every cursor operation are the methods of Model/Sql. C76_lazy: every program that respects the two conditions sees what the specification of lazy sequences says; C76_values: reading programs, in terms of the known vertices; C76_late: first asked after changes; C76_batch_alone: inside a batch with nothing between. The counterexamples show what happens to a sequence first asked inside a batch. In SQLite an operation under an unfinished SELECT may change the rows it delivers in any way; MySQLdb fetches all rows first."
  },
  {
   "property": "C77",
   "status": "proved",
   "theorems": [
    "GB.C77_same",
    "GB.C77_reads",
    "GB.C77_merged",
    "GB.C77_unfound",
    "GB.C77_case_counterexample",
    "GB.C77_accent_counterexample",
    "GB.C77_backquote_counterexample"
   ],
   "note": "The server's behaviour is modelled from the documentation of utf8_general_ci (character weights, PAD SPACE), not run. C77_same and C77_reads: lower case ASCII; the hypothesis about the weights (GeneralOnAscii) says nothing about other characters. C77_merged and C77_unfound: every state, any weights. Concrete counterexamples with the Latin-1 weights: an edge that differs only in case takes the place of the stored one; an edge ending in an accented letter cannot be added twice. Not covered by C77_same: remove_by_pattern whose last text ends in z (it finds the same edges, possibly in another order)."
  },
  {
   "property": "C78",
   "status": "proved",
   "theorems": [
    "GB.C78_upper",
    "GB.C78_positive",
    "GB.C78_never_below",
    "GB.C78_tight"
   ],
   "note": "Statement level (Box.start/Reach of C72), so batches, lists in one transaction and kills are included; programs without removals. C78_tight: both bounds are reached, and the lower bound fails for symbols that are new."
  },
  {
   "property": "C79",
   "status": "proved",
   "theorems": [
    "GB.C79_upper",
    "GB.C79_lower",
    "GB.C79_lower_known",
    "GB.C79_untouched",
    "GB.C79_tight"
   ],
   "note": "Statement level (Box.start/Reach of C72): removals, patterns, beliefs, batches and kills included; no restriction on the programs. C79_tight: the lower bound for known symbols is reached, with a negative degree."
  },
  {
   "property": "C80",
   "status": "proved",
   "theorems": [
    "GB.C80_crash",
    "GB.C80_resume",
    "GB.C80_tight",
    "GB.C80_mysql_counterexample"
   ],
   "note": "For SQLite, as stated. C80_tight: the bound on what is lost is attained. C80_mysql_counterexample: with autocommit (MySQL) repeating an interrupted import can count degrees twice."
  },
  {
   "property": "C81",
   "status": "proved",
   "theorems": [
    "GB.C81_crash",
    "GB.C81_resume",
    "GB.C81_twice",
    "GB.C81_parts"
   ],
   "note": "C81_crash and C81_resume for SQLite; C81_twice and C81_parts for both commit modes. The lexical database is arbitrary data (Model/Wordnet)."
  },
  {
   "property": "C82",
   "status": "proved",
   "theorems": [
    "GB.C82_recover",
    "GB.C82_as_new",
    "GB.C82_cause",
    "GB.C82_results",
    "GB.C82_not_durable",
    "GB.C82_closes",
    "GB.C82_refuses",
    "GB.C82_half"
   ],
   "note": "All states of the tables and of the shared cursor (None, open, closed), arbitrary arguments. C82_half: the element at which the bulk addition raises is one whose existence test raises (for example a number)."
  },
  {
   "property": "C83",
   "status": "proved",
   "theorems": [
    "GB.C83_fits",
    "GB.C83_present",
    "GB.C83_absent",
    "GB.C83_bulk_present",
    "GB.C83_bulk_absent"
   ],
   "note": "C83_fits links the guarded model (Model/Overflow.lean) with the base model for all arguments and states; C83_present, C83_absent, C83_bulk_present, C83_bulk_absent describe the rest exactly."
  },
  {
   "property": "C84",
   "status": "proved",
   "theorems": [
    "GB.C84_read_text",
    "GB.C84_store",
    "GB.C84_head_edge",
    "GB.C84_head_edge_lost",
    "GB.C84_one_word"
   ],
   "note": "C84_read_text (well-formedness of everything read, from C60/C61: every tuple has two elements, every symbol ends in /1 or /?), C84_store (any history, any number of edges), C84_head_edge (any edge starting with an edge), and the counterexamples C84_head_edge_lost and C84_one_word for the restriction."
  },
  {
   "property": "C85",
   "status": "proved",
   "theorems": [
    "GB.C85_happens",
    "GB.C85_account",
    "GB.C85_since"
   ],
   "note": "C85_account (every history and vertex; Spec/Account.lean defines what happens and the account), C85_happens (such a list of events always exists), C85_since (closed form since the last creation). The exact replacement of C23, which is false in general."
  },
  {
   "property": "C86",
   "status": "proved",
   "theorems": [
    "GB.C86_print",
    "GB.C86_parse",
    "GB.C86_history",
    "GB.C86_reads",
    "GB.C86_all_or_nothing",
    "GB.C86_caught",
    "GB.C86_stuck",
    "GB.C86_seven_counterexample"
   ],
   "note": "C86_print and C86_parse (exact), C86_history and C86_reads (enough frames), C86_all_or_nothing and C86_caught (too few, any number but 7), C86_stuck, C86_seven_counterexample. Frames are counted as CPython up to 3.11 does; builtins and the driver take none (Model/Frames.lean)."
  },
  {
   "property": "C87",
   "status": "proved",
   "theorems": [
    "GB.C87_atomic",
    "GB.C87_terminates",
    "GB.C87_no_error",
    "GB.C87_no_phantom",
    "GB.C87_restored",
    "GB.C87_erased",
    "GB.C87_own",
    "GB.C87_torn_counterexample",
    "GB.C87_star_counterexample"
   ],
   "note": "C87_atomic, C87_terminates, C87_no_error, C87_no_phantom, C87_restored, C87_erased, C87_own; the counterexamples show that a destroy in the middle of another process's add leaves an edge that star returns though it does not exist, and that C87_restored cannot be extended from exists to star."
  },
  {
   "property": "C88",
   "status": "proved",
   "theorems": [
    "GB.C88_same",
    "GB.C88_reads",
    "GB.C88_refused",
    "GB.C88_caught",
    "GB.C88_bulk",
    "GB.C88_unstorable"
   ],
   "note": "C88_same, C88_reads, C88_refused, C88_caught, C88_bulk, C88_unstorable. Only the character sets are added to the base model here; the other deviations of MySQL are the subject of C68 and C77."
  },
  {
   "property": "C89",
   "status": "proved",
   "theorems": [
    "GB.C89_instances",
    "GB.C89_portable",
    "GB.C89_mysql",
    "GB.C89_reads",
    "GB.C89_sqlite64"
   ],
   "note": "C89_instances, C89_portable, C89_mysql, C89_reads, C89_sqlite64. The 32-bit degree column of MySQL is taken to hold the degrees."
  },
  {
   "property": "C90",
   "status": "proved",
   "theorems": [
    "GB.C90_upper",
    "GB.C90_lower",
    "GB.C90_lower_known",
    "GB.C90_errors",
    "GB.C90_edges",
    "GB.C90_added",
    "GB.C90_finished",
    "GB.C90_untouched",
    "GB.C90_positive",
    "GB.C90_never_below",
    "GB.C90_tight",
    "GB.C90_lost_count_counterexample",
    "GB.C90_added_star_counterexample"
   ],
   "note": "C90_upper, C90_lower, C90_lower_known, C90_untouched, C90_errors, C90_edges, C90_added, C90_finished, C90_positive, C90_never_below; C90_tight and the counterexamples show that the bounds cannot be improved and that the conditions are needed. Each statement is atomic on the server (autocommit); deadlocks and lost connections count as clients that stop."
  },
  {
   "property": "C91",
   "status": "proved",
   "theorems": [
    "GB.C91_same",
    "GB.C91_or_raises",
    "GB.C91_mysql",
    "GB.C91_accepts",
    "GB.C91_refused",
    "GB.C91_long",
    "GB.C91_half",
    "GB.C91_half_indexed_counterexample",
    "GB.C91_counted_counterexample"
   ],
   "note": "C91_same, C91_or_raises, C91_mysql, C91_accepts, C91_refused, C91_long, C91_half. The counterexamples show what the refused edge leaves behind. Trailing spaces, which MySQL cuts, count here; no stored text ends in one."
  },
  {
   "property": "C92",
   "status": "proved",
   "theorems": [
    "GB.C92_edges",
    "GB.C92_added",
    "GB.C92_removed",
    "GB.C92_finished",
    "GB.C92_all_returned",
    "GB.C92_both_counterexample",
    "GB.C92_added_star_counterexample",
    "GB.C92_pattern_counterexample"
   ],
   "note": "C92_edges, C92_added, C92_removed, C92_finished, C92_all_returned, for any number of processes, any programs and any schedule of statements. The counterexamples show that each condition is needed: an edge that one process adds and another removes can be half there for ever; a process that found the edge being added returns before `star` shows it; a removal by a pattern returns before `exists` says so."
  },
  {
   "property": "C93",
   "status": "proved",
   "theorems": [
    "GB.C93_elsewhere",
    "GB.C93_done",
    "GB.C93_create",
    "GB.C93_create_dies",
    "GB.C93_wordnet",
    "GB.C93_repeated",
    "GB.C93_meanwhile",
    "GB.C93_mysql",
    "GB.C93_none",
    "GB.C93_null"
   ],
   "note": "C93_elsewhere, C93_done, C93_create, C93_create_dies, C93_wordnet, C93_repeated, C93_meanwhile, C93_mysql, C93_none, C93_null. `wordnet` itself raises IndexError, without `done.`, when the number of statements is a multiple of 501 (as in C50), in the model as in the code."
  },
  {
   "property": "C94",
   "status": "proved",
   "theorems": [
    "GB.C94_removed",
    "GB.C94_finished",
    "GB.C94_all_returned",
    "GB.C94_both_counterexample",
    "GB.C94_raised_counterexample",
    "GB.C94_pattern_counterexample"
   ],
   "note": "C94_removed, C94_finished, C94_all_returned. The counterexamples show that the conditions are needed: three clients, one that adds and two that remove, all return without an exception, and the edge is there for `exists` and not for `star`; a client that removes by a pattern can return while the edge exists. Deadlocks, lock timeouts and lost connections of the server are not modelled."
  },
  {
   "property": "C95",
   "status": "proved",
   "theorems": [
    "GB.C95_whole",
    "GB.C95_one_returned",
    "GB.C95_untouched"
   ],
   "note": "C95_whole, C95_one_returned, C95_untouched. The hypothesis that edges fit the key is that of C68; that the clients have ended is needed by C90_added_star_counterexample. Deadlocks, lock timeouts and lost connections of the server are not modelled."
  },
  {
   "property": "C96",
   "status": "proved",
   "theorems": [
    "GB.C96_or_raises",
    "GB.C96_same",
    "GB.C96_mysql",
    "GB.C96_accepts",
    "GB.C96_refused",
    "GB.C96_retry_counterexample"
   ],
   "note": "C96_or_raises (any server, any state), C96_same, C96_mysql, C96_accepts, C96_refused, C96_retry_counterexample. Only the upper end of the column is modelled. C96_accepts and C96_refused are about the base model with such a column."
  },
  {
   "property": "C97",
   "status": "proved",
   "theorems": [
    "GB.C97_caught",
    "GB.C97_mysql",
    "GB.C97_edges",
    "GB.C97_degrees",
    "GB.C97_vertices_counterexample"
   ],
   "note": "C97_caught, C97_mysql, C97_edges, C97_degrees, C97_vertices_counterexample (time stamps and degrees keep traces of refused calls). Not about batches, about additions of several edges in one call (C39: after a failure the shared cursor stays open), or about refusals while the index is written (C91: edges too long for MySQL's keys)."
  }
 ]
}