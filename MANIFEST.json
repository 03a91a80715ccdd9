{
 "claims": [
  {
   "property": "C01",
   "status": "proved",
   "theorems": [
    "Rustomata.Props.C01_search_sound",
    "Rustomata.Props.C01_agendas"
   ],
   "note": ""
  },
  {
   "property": "C02",
   "status": "proved",
   "theorems": [
    "Rustomata.Props.C02_search_balance",
    "Rustomata.Props.C02_search_exhaustive",
    "Rustomata.Props.C02_agendas"
   ],
   "note": ""
  },
  {
   "property": "C03",
   "status": "proved",
   "theorems": [
    "Rustomata.Props.C03_bfs_complete",
    "Rustomata.Props.C03_bfs_order"
   ],
   "note": ""
  },
  {
   "property": "C04",
   "status": "proved",
   "theorems": [
    "Rustomata.Props.C04_weighted_sorted",
    "Rustomata.Props.C04_weighted_best_first"
   ],
   "note": "for every heap that satisfies the stated laws"
  },
  {
   "property": "C05",
   "status": "proved",
   "theorems": [
    "Rustomata.Props.C05_unique_nodup",
    "Rustomata.Props.C05_unique_nodup_through"
   ],
   "note": ""
  },
  {
   "property": "C06",
   "status": "partial",
   "theorems": [
    "Rustomata.Props.C06_unique_complete_violated",
    "Rustomata.Props.C06_unique_complete_partial",
    "Rustomata.Props.C06_unique_complete_forest_partial",
    "Rustomata.Props.C06_unique_complete_through_partial"
   ],
   "note": "The full claim is false of the code: after a duplicate is popped, unique::Search::next returns None and later items are lost (C06_unique_complete_violated). Proved for graphs where no item is reached twice, and for callers that continue calling next through None."
  },
  {
   "property": "C07",
   "status": "proved",
   "theorems": [
    "Rustomata.Props.C07_vec_is_stack",
    "Rustomata.Props.C07_deque_is_queue"
   ],
   "note": ""
  },
  {
   "property": "C08",
   "status": "proved",
   "theorems": [
    "Rustomata.Props.C08_limited_best_k",
    "Rustomata.Props.C08_limited_capacity",
    "Rustomata.Props.C08_limited_push_pop"
   ],
   "note": "for every min-max heap that satisfies the stated laws"
  },
  {
   "property": "C09",
   "status": "proved",
   "theorems": [
    "Rustomata.Props.C09_beam_push",
    "Rustomata.Props.C09_beam_accepts_best",
    "Rustomata.Props.C09_beam_pushes"
   ],
   "note": ""
  },
  {
   "property": "C10",
   "status": "partial",
   "theorems": [
    "Rustomata.Props.C10_unique_heap_partial",
    "Rustomata.Props.C10_from_iter_first_weight",
    "Rustomata.Props.C10_into_sorted_vec",
    "Rustomata.Props.C10_from_vec_violated"
   ],
   "note": "False for From<Vec>, which does not deduplicate (C10_from_vec_violated); proved for all other operations."
  },
  {
   "property": "C100",
   "status": "partial",
   "theorems": [
    "Rustomata.Props.C100_bracket",
    "Rustomata.Props.C100_word_partial",
    "Rustomata.Props.C100_content",
    "Rustomata.Props.C100_delta",
    "Rustomata.Props.C100_violated"
   ],
   "note": "Proved for annotations whose texts contain no brackets, in particular for BracketContent (C100_delta); refuted for arbitrary annotations (C100_violated)."
  },
  {
   "property": "C101",
   "status": "partial",
   "theorems": [
    "Rustomata.Props.C101_length",
    "Rustomata.Props.C101_sentence_partial",
    "Rustomata.Props.C101_logarithms",
    "Rustomata.Props.C101_violated"
   ],
   "note": "Proved: length and grammaticality for all weights (C101_length); the sentence itself for grammars with preterminals and commutative weights (C101_sentence_partial, C101_logarithms). Refuted for nonterminals with rules for several terminals (C101_violated)."
  },
  {
   "property": "C102",
   "status": "partial",
   "theorems": [
    "Rustomata.Props.C102_exact_partial",
    "Rustomata.Props.C102_violated"
   ],
   "note": "Proved for associative weights (C102_exact_partial); refuted for rounded logarithms (C102_violated): a grammar with 4 derivations of a sentence for which 5 trees are returned."
  },
  {
   "property": "C103",
   "status": "proved",
   "theorems": [
    "Rustomata.Props.C103_parses",
    "Rustomata.Props.C103_logarithms",
    "Rustomata.Props.C103_rounded"
   ],
   "note": "For all weights with the laws of RoundedWeight (Spec/RoundedWeight.lean) and without zero divisors; these laws are proved for the rounded logarithms of C89. C41_no_parse_lost, C42 and C83 are stated for RoundedWeight as well."
  },
  {
   "property": "C104",
   "status": "proved",
   "theorems": [
    "Rustomata.Props.C104_order",
    "Rustomata.Props.C104_exact",
    "Rustomata.Props.C104_exact_violated"
   ],
   "note": "The bound is not claimed to be tight. C104_exact_violated: a grammar and a way to round for which a derivation of cost 7 is returned before one of cost 6."
  },
  {
   "property": "C105",
   "status": "proved",
   "theorems": [
    "Rustomata.Props.C105_new",
    "Rustomata.Props.C105_best",
    "Rustomata.Props.C105_exact",
    "Rustomata.Props.C105_exact_violated",
    "Rustomata.Props.C105_factors",
    "Rustomata.Props.C105_zero",
    "Rustomata.Props.C105_sum",
    "Rustomata.Props.C105_logarithms"
   ],
   "note": "The bound is not claimed to be tight. C105_exact_violated: a grammar and a way to round for which a derivation of cost 7 is returned first though one of cost 6 exists. C105_logarithms assumes the relative error for the quotients and products of the weights of the grammar only, so that underflow elsewhere does not matter."
  },
  {
   "property": "C106",
   "status": "proved",
   "theorems": [
    "Rustomata.Props.C106_command"
   ],
   "note": "Combines C84 (generalised to rounded weights), C101 and C105."
  },
  {
   "property": "C11",
   "status": "proved",
   "theorems": [
    "Rustomata.Props.C11_multimap_refines",
    "Rustomata.Props.C11_into_vec",
    "Rustomata.Props.C11_into_vec_with_size"
   ],
   "note": ""
  },
  {
   "property": "C12",
   "status": "proved",
   "theorems": [
    "Rustomata.Props.C12_new_iff_disjoint",
    "Rustomata.Props.C12_lookup",
    "Rustomata.Props.C12_collapse"
   ],
   "note": ""
  },
  {
   "property": "C13",
   "status": "proved",
   "theorems": [
    "Rustomata.Props.C13_pushdown_refines",
    "Rustomata.Props.C13_pushdown_slice",
    "Rustomata.Props.C13_pushdown_map"
   ],
   "note": ""
  },
  {
   "property": "C14",
   "status": "proved",
   "theorems": [
    "Rustomata.Props.C14_reverse_order",
    "Rustomata.Props.C14_reverse_total",
    "Rustomata.Props.C14_reverse_search",
    "Rustomata.Props.C14_reverse_arithmetic",
    "Rustomata.Props.C14_reverse_mono"
   ],
   "note": ""
  },
  {
   "property": "C15",
   "status": "proved",
   "theorems": [
    "Rustomata.Props.C15_symbol",
    "Rustomata.Props.C15_stable",
    "Rustomata.Props.C15_distinct",
    "Rustomata.Props.C15_idempotent",
    "Rustomata.Props.C15_word",
    "Rustomata.Props.C15_stack",
    "Rustomata.Props.C15_pushdown",
    "Rustomata.Props.C15_pd_instruction",
    "Rustomata.Props.C15_fs_instruction",
    "Rustomata.Props.C15_pd_transition",
    "Rustomata.Props.C15_fs_transition",
    "Rustomata.Props.C15_pd_apply",
    "Rustomata.Props.C15_fs_apply",
    "Rustomata.Props.C15_ts_stack",
    "Rustomata.Props.C15_ts_instruction",
    "Rustomata.Props.C15_ts_transition",
    "Rustomata.Props.C15_ts_apply",
    "Rustomata.Props.C15_tsa_new"
   ],
   "note": "stores, instructions and transitions of push-down, finite state and tree stack automata"
  },
  {
   "property": "C16",
   "status": "proved",
   "theorems": [
    "Rustomata.Props.C16_pda_sound",
    "Rustomata.Props.C16_fsa_sound",
    "Rustomata.Props.C16_recognise_sound",
    "Rustomata.Props.C16_tsa_sound"
   ],
   "note": "for every storage type on the internal representation, and for push-down, finite state and tree stack automata on the representation a user sees"
  },
  {
   "property": "C17",
   "status": "proved",
   "theorems": [
    "Rustomata.Props.C17_pda_exact",
    "Rustomata.Props.C17_recognise_terminates",
    "Rustomata.Props.C17_fsa_exact",
    "Rustomata.Props.C17_recognise_complete",
    "Rustomata.Props.C17_recognise_at_most",
    "Rustomata.Props.C17_recognise_exact",
    "Rustomata.Props.C17_unknown_terminal",
    "Rustomata.Props.C17_tsa_exact"
   ],
   "note": "for every storage type with exact multiplicities, and for push-down, finite state and tree stack automata on the representation a user sees"
  },
  {
   "property": "C18",
   "status": "proved",
   "theorems": [
    "Rustomata.Props.C18_pda_sorted",
    "Rustomata.Props.C18_pda_best_first",
    "Rustomata.Props.C18_fsa_best_first",
    "Rustomata.Props.C18_recognise_sorted",
    "Rustomata.Props.C18_recognise_best_first",
    "Rustomata.Props.C18_tsa_best_first"
   ],
   "note": "for every heap that satisfies the stated laws"
  },
  {
   "property": "C19",
   "status": "proved",
   "theorems": [
    "Rustomata.Props.C19_beam_sound",
    "Rustomata.Props.C19_beam_waiting",
    "Rustomata.Props.C19_beam_large_enough"
   ],
   "note": "for every min-max heap that satisfies the stated laws"
  },
  {
   "property": "C20",
   "status": "proved",
   "theorems": [
    "Rustomata.Props.C20_check_run",
    "Rustomata.Props.C20_check_run_exec",
    "Rustomata.Props.C20_check_run_confirms"
   ],
   "note": ""
  },
  {
   "property": "C21",
   "status": "proved",
   "theorems": [
    "Rustomata.Props.C21_replace",
    "Rustomata.Props.C21_replace_error"
   ],
   "note": ""
  },
  {
   "property": "C22",
   "status": "partial",
   "theorems": [
    "Rustomata.Props.C22_language",
    "Rustomata.Props.C22_weights_violated",
    "Rustomata.Props.C22_weights_partial",
    "Rustomata.Props.C22_no_panic",
    "Rustomata.Props.C22_recognise",
    "Rustomata.Props.C22_merged"
   ],
   "note": "The language part holds for all grammars (C22_language, C22_recognise). The weight part is false for grammars with duplicate rules or initial nonterminals, whose weights are added (C22_weights_violated); proved as a weight-preserving one-to-one correspondence for grammars without duplicates. C22_merged: for all grammars, a one to one correspondence with the leftmost derivations of the merged grammar."
  },
  {
   "property": "C23",
   "status": "proved",
   "theorems": [
    "Rustomata.Props.C23_new",
    "Rustomata.Props.C23_new_panics"
   ],
   "note": "new panics iff some instruction has an empty current_val (C23_new_panics)"
  },
  {
   "property": "C24",
   "status": "proved",
   "theorems": [
    "Rustomata.Props.C24_language",
    "Rustomata.Props.C24_recognise",
    "Rustomata.Props.C24_terminates"
   ],
   "note": ""
  },
  {
   "property": "C25",
   "status": "partial",
   "theorems": [
    "Rustomata.Props.C25_cfg_copying_violated",
    "Rustomata.Props.C25_cfg_deleting_violated",
    "Rustomata.Props.C25_cfg_language_partial",
    "Rustomata.Props.C25_cfg_panics"
   ],
   "note": "False for rules that copy or drop a variable's value (violated theorems); the weighted language is preserved for rules that use each right-hand side nonterminal exactly once; the panic condition is characterised in full."
  },
  {
   "property": "C26",
   "status": "proved",
   "theorems": [
    "Rustomata.Props.C26_mcfg_from_pmcfg",
    "Rustomata.Props.C26_mcfg_from_pmcfg_none"
   ],
   "note": ""
  },
  {
   "property": "C27",
   "status": "proved",
   "theorems": [
    "Rustomata.Props.C27_new",
    "Rustomata.Props.C27_pointer",
    "Rustomata.Props.C27_tree",
    "Rustomata.Props.C27_to_tree_sorted",
    "Rustomata.Props.C27_set",
    "Rustomata.Props.C27_push",
    "Rustomata.Props.C27_push_next",
    "Rustomata.Props.C27_up",
    "Rustomata.Props.C27_ups",
    "Rustomata.Props.C27_down",
    "Rustomata.Props.C27_all",
    "Rustomata.Props.C27_instruction_up",
    "Rustomata.Props.C27_instruction_push",
    "Rustomata.Props.C27_instruction_down"
   ],
   "note": "all histories of operations (Reachable); also the three instructions of tree stack automata"
  },
  {
   "property": "C28",
   "status": "partial",
   "theorems": [
    "Rustomata.Props.C28_automaton",
    "Rustomata.Props.C28_panics",
    "Rustomata.Props.C28_empty_word",
    "Rustomata.Props.C28_language_violated",
    "Rustomata.Props.C28_trailing_terminals_violated",
    "Rustomata.Props.C28_deleting_violated",
    "Rustomata.Props.C28_unordered_violated",
    "Rustomata.Props.C28_sound_partial",
    "Rustomata.Props.C28_complete_partial",
    "Rustomata.Props.C28_language_partial",
    "Rustomata.Props.C28_recognise_partial"
   ],
   "note": "The claim (C28_claim) is false of the code, with witnesses: the empty word is always accepted, only the last of several trailing terminals of a component is read, children that are deleted are not checked, components visited out of order are not accepted. Proved for all grammars that are ordered, non-deleting and have short trails: accepting non-empty runs and derivations correspond, with weights, also for recognise. Panics of the construction are characterised exactly. The exact language for arbitrary grammars is proved in C77 and C78."
  },
  {
   "property": "C29",
   "status": "proved",
   "theorems": [
    "Rustomata.Props.C29_storage",
    "Rustomata.Props.C29_instruction",
    "Rustomata.Props.C29_simulation",
    "Rustomata.Props.C29_automaton",
    "Rustomata.Props.C29_weight"
   ],
   "note": "tts: the approximated store is the label path to the pointer; instructions, runs and accepting runs are simulated; the mirrored run is at least as good when sums dominate summands."
  },
  {
   "property": "C30",
   "status": "proved",
   "theorems": [
    "Rustomata.Props.C30_simulation",
    "Rustomata.Props.C30_instruction",
    "Rustomata.Props.C30_automaton",
    "Rustomata.Props.C30_weight"
   ],
   "note": "relabel: instructions, runs and accepting runs are simulated; weight is the same if no two transitions merge, otherwise at least as good when sums dominate summands."
  },
  {
   "property": "C31",
   "status": "partial",
   "theorems": [
    "Rustomata.Props.C31_transition",
    "Rustomata.Props.C31_run",
    "Rustomata.Props.C31_nodup",
    "Rustomata.Props.C31_violated",
    "Rustomata.Props.C31_automaton_partial"
   ],
   "note": "Violated: PDA::new sums the weights of merged transitions, the merged transition is not a key of the reverse map. Proved for transitions as approximated (C31_run, with multiplicities) and for the automaton if no two transitions merge."
  },
  {
   "property": "C32",
   "status": "partial",
   "theorems": [
    "Rustomata.Props.C32_items",
    "Rustomata.Props.C32_sound",
    "Rustomata.Props.C32_violated",
    "Rustomata.Props.C32_exact_partial",
    "Rustomata.Props.C32_terminates",
    "Rustomata.Props.C32_step_sound",
    "Rustomata.Props.C32_step_exact_partial"
   ],
   "note": "Violated: next_input leaves Some(None), so only the first coarse parse is considered. Proved: soundness, order, termination, exactly what is returned, and completeness if there is at most one coarse parse and nothing merges."
  },
  {
   "property": "C33",
   "status": "proved",
   "theorems": [
    "Rustomata.Props.C33_recognize",
    "Rustomata.Props.C33_insert",
    "Rustomata.Props.C33_pairs"
   ],
   "note": "recognize accepts exactly the words generated by S -> eps | S S | (a S )a; plus insertion invariance and the matching forest."
  },
  {
   "property": "C34",
   "status": "proved",
   "theorems": [
    "Rustomata.Props.C34_no_panic",
    "Rustomata.Props.C34_language",
    "Rustomata.Props.C34_sorted_language",
    "Rustomata.Props.C34_recognize",
    "Rustomata.Props.C34_sorted_recognize",
    "Rustomata.Props.C34_subset"
   ],
   "note": "Both new and sorted: recognize never panics, ends, and answers membership in the (sorted) multiple Dyck language, specified by a grouping of the matching pairs into cells; for every word, partition and lossless agenda."
  },
  {
   "property": "C35",
   "status": "partial",
   "theorems": [
    "Rustomata.Props.C35_lcfrs_new_violated",
    "Rustomata.Props.C35_lcfrs_new_panic_violated",
    "Rustomata.Props.C35_lcfrs_new_partial",
    "Rustomata.Props.C35_lcfrs_new_nonzero_partial",
    "Rustomata.Props.C35_accepts",
    "Rustomata.Props.C35_panics",
    "Rustomata.Props.C35_accepts_lcfrs"
   ],
   "note": "The claim as stated is false (witnesses: rejected LCFRS, panic); proved under the stated side conditions. C35_accepts and C35_panics describe the results for all rules without side conditions."
  },
  {
   "property": "C36",
   "status": "partial",
   "theorems": [
    "Rustomata.Props.C36_mcfg_lcfrs_violated",
    "Rustomata.Props.C36_malformed_violated",
    "Rustomata.Props.C36_sound",
    "Rustomata.Props.C36_language_partial",
    "Rustomata.Props.C36_nondeleting",
    "Rustomata.Props.C36_linear",
    "Rustomata.Props.C36_is_lcfrs_partial",
    "Rustomata.Props.C36_terminates",
    "Rustomata.Props.C36_no_panic"
   ],
   "note": "Language equality is false because the unique search ends at a duplicate (witness). Proved in full: soundness with equal weights for well-formed grammars, non-deletion, linearity, termination, absence of panics; language equality and the LCFRS form are proved when the search agenda was emptied."
  },
  {
   "property": "C37",
   "status": "proved",
   "theorems": [
    "Rustomata.Props.C37_evaluate",
    "Rustomata.Props.C37_evaluate_panics",
    "Rustomata.Props.C37_evaluate_unused",
    "Rustomata.Props.C37_evaluate_derivation"
   ],
   "note": ""
  },
  {
   "property": "C38",
   "status": "partial",
   "theorems": [
    "Rustomata.Props.C38_normal_form_violated",
    "Rustomata.Props.C38_normal_form_partial",
    "Rustomata.Props.C38_evaluation",
    "Rustomata.Props.C38_evaluation_derivation",
    "Rustomata.Props.C38_terminates",
    "Rustomata.Props.C38_string_names"
   ],
   "note": "The documented normal form fails for particular rules (witness); the evaluation is preserved for all well-numbered trees."
  },
  {
   "property": "C39",
   "status": "proved",
   "theorems": [
    "Rustomata.Props.C39_in_range",
    "Rustomata.Props.C39_injective",
    "Rustomata.Props.C39_fills",
    "Rustomata.Props.C39_state_in_range",
    "Rustomata.Props.C39_state_injective",
    "Rustomata.Props.C39_state_fills",
    "Rustomata.Props.C39_chart_refines"
   ],
   "note": "Index arithmetic of the dense chart and refinement of the whole chart to a function from spans to entry lists."
  },
  {
   "property": "C40",
   "status": "partial",
   "theorems": [
    "Rustomata.Props.C40_new_total",
    "Rustomata.Props.C40_mask",
    "Rustomata.Props.C40_unproductive",
    "Rustomata.Props.C40_derivation_kept",
    "Rustomata.Props.C40_unproductive_violated"
   ],
   "note": "Exact for every LCFRS in normal form whose right-hand side nonterminals have rules, all words over which the initial nonterminal is productive, and every iteration order of the hash sets; never panics; no rule of a derivation is filtered out. The literal statement is violated for words over which the initial nonterminal is not productive (the mask is then all false although a rule with an empty right-hand side of the reachable initial nonterminal should be kept)."
  },
  {
   "property": "C41",
   "status": "proved",
   "theorems": [
    "Rustomata.Props.C41_total",
    "Rustomata.Props.C41_overestimate",
    "Rustomata.Props.C41_no_parse_lost"
   ],
   "note": "For all grammars whose weights factor into weights of at most one, over every linearly ordered commutative monoid with zero. C41_total needs a rule for the initial nonterminal (otherwise the code panics)."
  },
  {
   "property": "C42",
   "status": "partial",
   "theorems": [
    "Rustomata.Props.C42_tables",
    "Rustomata.Props.C42_sound",
    "Rustomata.Props.C42_best_partial",
    "Rustomata.Props.C42_best_parse_partial",
    "Rustomata.Props.C42_total",
    "Rustomata.Props.C42_long_sentences_panic",
    "Rustomata.Props.C42_best_violated"
   ],
   "note": "Soundness is proved for all beams, thresholds, filters and estimates (sentences of at most 255 words; from 257 words on the code panics, C42_long_sentences_panic). The best derivation is missed if a chain rule has a weight greater than one (C42_best_violated); proved for chain rules of weight at most one. What happens from 256 words on is proved in C82."
  },
  {
   "property": "C43",
   "status": "partial",
   "theorems": [
    "Rustomata.Props.C43_dyck",
    "Rustomata.Props.C43_sentence_partial",
    "Rustomata.Props.C43_sentence_violated"
   ],
   "note": "Dyck property: for all charts and filters. The terminal brackets spell a sentence of the right length, but not always the given one: the enumeration does not compare terminals (witness S -> a, S -> b, sentence a). Proved for charts in which states of single words have terminal rules only for this word."
  },
  {
   "property": "C44",
   "status": "partial",
   "theorems": [
    "Rustomata.Props.C44_enumerates_partial",
    "Rustomata.Props.C44_filled_partial",
    "Rustomata.Props.C44_complete_partial",
    "Rustomata.Props.C44_deterministic",
    "Rustomata.Props.C44_sound",
    "Rustomata.Props.C44_terminals",
    "Rustomata.Props.C44_order_violated",
    "Rustomata.Props.C44_cycle_violated"
   ],
   "note": "The claim fails: the terminal of a rule is not compared with the word and cyclic chain rules make the enumeration loop (witnesses). Proved for charts whose cells hold best weights, acyclic chain rules and matching terminals: the enumeration gives exactly the derivations of the chart, each once, in non-increasing order of weight. Without any condition: every enumerated word is the bracket word of a derivation over the chart. Cycles whose weights are below one are treated in C81."
  },
  {
   "property": "C45",
   "status": "partial",
   "theorems": [
    "Rustomata.Props.C45_none",
    "Rustomata.Props.C45_derivation_partial",
    "Rustomata.Props.C45_word_partial",
    "Rustomata.Props.C45_no_components_violated"
   ],
   "note": "None exactly for disagreeing components, for all bracket words; the correspondence of consistent bracket words and derivations (with equal weights) holds for LCFRS in which each rule has a component (and, for the direction from words to derivations, each nonterminal of a right-hand side has a rule); violated for nonterminals without components, whose rules are never visited"
  },
  {
   "property": "C46",
   "status": "partial",
   "theorems": [
    "Rustomata.Props.C46_sum",
    "Rustomata.Props.C46_weights",
    "Rustomata.Props.C46_positive",
    "Rustomata.Props.C46_violated"
   ],
   "note": "Proved over any division semiring (exact arithmetic; f64 rounding not modelled) whenever the total of the counts of the left-hand side is not zero, in particular for positive counts. Without that condition the claim is false: a nonterminal whose counts are all zero has the weight 0/0."
  },
  {
   "property": "C47",
   "status": "partial",
   "theorems": [
    "Rustomata.Props.C47_rparse",
    "Rustomata.Props.C47_rparse_text",
    "Rustomata.Props.C47_discodop",
    "Rustomata.Props.C47_discodop_text",
    "Rustomata.Props.C47_linear",
    "Rustomata.Props.C47_discodop_long",
    "Rustomata.Props.C47_violated",
    "Rustomata.Props.C47_panics"
   ],
   "note": "Proved for all yield descriptions of rparse and, from the text on, for those of disco-dop whose components have at most 64 variables. The unrestricted claim is false for disco-dop: longer components panic, and 256 zeros are read as the empty component."
  },
  {
   "property": "C48",
   "status": "proved",
   "theorems": [
    "Rustomata.Props.C48_token",
    "Rustomata.Props.C48_cfg_rule",
    "Rustomata.Props.C48_pmcfg_rule",
    "Rustomata.Props.C48_pmcfg",
    "Rustomata.Props.C48_lcfrs",
    "Rustomata.Props.C48_plain",
    "Rustomata.Props.C48_cfg_head",
    "Rustomata.Props.C48_pmcfg_head",
    "Rustomata.Props.C48_unrestricted_violated",
    "Rustomata.Props.C48_lcfrs_violated"
   ],
   "note": "Proved for CFG rules, PMCFG rules, whole PMCFGs and LCFRS whose symbols are recovered from their text and need no escapes (backslashes and quotes only as escape pairs; this condition is shown to be necessary for a quoted token and for the heads of rules), and whose weights are printed as visible ASCII. Without the condition the claim is false: the printers do not escape (C48_unrestricted_violated), and an LCFRS prints its initial nonterminal without quotes (C48_lcfrs_violated: S-1)."
  },
  {
   "property": "C49",
   "status": "partial",
   "theorems": [
    "Rustomata.Props.C49_lines",
    "Rustomata.Props.C49_panics",
    "Rustomata.Props.C49_criteria",
    "Rustomata.Props.C49_yield",
    "Rustomata.Props.C49_derivation",
    "Rustomata.Props.C49_text",
    "Rustomata.Props.C49_root_violated",
    "Rustomata.Props.C49_nodes_violated",
    "Rustomata.Props.C49_noparse",
    "Rustomata.Props.C49_noparse_words",
    "Rustomata.Props.C49_noparse_default"
   ],
   "note": "For all trees of rules with a value: terminals in order, nodes that dominate a terminal each exactly once, numbered from 500, parents with 0 for the root; exact characterisation of panics; for derivations of non-deleting grammars without empty right-hand sides all inner nodes are listed. The claim as stated is false: a terminal rule at the root meets the criteria but panics, and inner nodes that dominate no terminal are not listed."
  },
  {
   "property": "C50",
   "status": "proved",
   "theorems": [
    "Rustomata.Props.C50_dfs_preorder"
   ],
   "note": ""
  },
  {
   "property": "C51",
   "status": "partial",
   "theorems": [
    "Rustomata.Props.C51_pda_no_panic_violated",
    "Rustomata.Props.C51_pda_no_panic_partial",
    "Rustomata.Props.C51_fsa_no_panic",
    "Rustomata.Props.C51_tsa_no_panic"
   ],
   "note": "False for push-down automata that empty their store (C51_pda_no_panic_violated); proved for finite state automata, tree stack automata, push-down automata whose reachable stores are not empty, and automata built from context-free grammars (C22_no_panic)."
  },
  {
   "property": "C52",
   "status": "partial",
   "theorems": [
    "Rustomata.Props.C52_new_safe",
    "Rustomata.Props.C52_project",
    "Rustomata.Props.C52_from_classes",
    "Rustomata.Props.C52_lines_violated",
    "Rustomata.Props.C52_lines_partial"
   ],
   "note": "new_safe, project and From<Vec> proved in full. From text: violated if a label occurs on two lines (the later line replaces the earlier one), proved for distinct labels."
  },
  {
   "property": "C53",
   "status": "partial",
   "theorems": [
    "Rustomata.Props.C53_sound_violated",
    "Rustomata.Props.C53_complete_violated",
    "Rustomata.Props.C53_ast_sound_partial",
    "Rustomata.Props.C53_ast_complete_partial"
   ],
   "note": "The claim for all grammars (C53_claim) is violated in both directions: S -> [0 1] has an accepting run for the word 1, which has no derivation; components used out of order have derivations without runs. Proved for grammars as in C28 (ordered, non-deleting, short trails); rules are compared up to their weight, since equality of rules ignores the weight. What the trees are for arbitrary grammars is proved in C77."
  },
  {
   "property": "C54",
   "status": "partial",
   "theorems": [
    "Rustomata.Props.C54_new_total",
    "Rustomata.Props.C54_parses_partial",
    "Rustomata.Props.C54_claim_partial",
    "Rustomata.Props.C54_pruned_partial",
    "Rustomata.Props.C54_length",
    "Rustomata.Props.C54_deterministic",
    "Rustomata.Props.C54_lexicon_violated",
    "Rustomata.Props.C54_root_violated",
    "Rustomata.Props.C67_parses_partial"
   ],
   "note": "Proved for grammars in which a nonterminal with a terminal rule has only rules for this terminal (as in grammars over part-of-speech tags) and without cycles of components consisting of one variable. Violated otherwise: the enumeration does not compare terminals to the sentence (S→a, S→b, sentence a returns both rules), and for sentences of one word the root is enumerated although it is not in the chart (S→a, S→X X, X→b, sentence b returns S→a). For all grammars each result is a derivation of a sentence of the same length. C67_parses_partial is the instance for probabilities (non-negative real numbers) with the factorisation of the code. Cycles whose weights are below one are treated in C81."
  },
  {
   "property": "C55",
   "status": "partial",
   "theorems": [
    "Rustomata.Props.C55_fallback",
    "Rustomata.Props.C55_evaluate",
    "Rustomata.Props.C55_length",
    "Rustomata.Props.C55_sentence_partial",
    "Rustomata.Props.C55_claim_partial",
    "Rustomata.Props.C55_with_fallback_partial",
    "Rustomata.Props.C55_debug_partial",
    "Rustomata.Props.C55_lexicon_violated"
   ],
   "note": "The construction of the fallback is proved for all linear rules and all bracket words of the context-free approximation. That the sentence of the fallback is the input is proved for grammars in which a nonterminal with a terminal rule has only rules for this terminal, and violated otherwise (S→a, S→b, sentence a: the fallback is S→b); for all grammars the sentence has the same length. Totality of with_fallback and the results of debug are proved for grammars without cycles of components consisting of one variable."
  },
  {
   "property": "C56",
   "status": "partial",
   "theorems": [
    "Rustomata.Props.C56_cfg_rule",
    "Rustomata.Props.C56_cfg",
    "Rustomata.Props.C56_pmcfg_rule_partial",
    "Rustomata.Props.C56_pmcfg_partial",
    "Rustomata.Props.C56_lcfrs_partial",
    "Rustomata.Props.C56_violated"
   ],
   "note": "Proved for CFG rules and CFGs. False for PMCFG rules (C56_violated): a malformed weight or a variable number of more than 64 bits panics (unwrap); these are shown to be the only causes, for rules and for whole grammars."
  },
  {
   "property": "C57",
   "status": "proved",
   "theorems": [
    "Rustomata.Props.C57_grammar",
    "Rustomata.Props.C57_discodop",
    "Rustomata.Props.C57_rparse"
   ],
   "note": "From the text of the files to the rules of the LCFRS; the formats are described by Spec/Import.lean (ConstituentText, LexiconText, ClauseText, FileText)."
  },
  {
   "property": "C58",
   "status": "partial",
   "theorems": [
    "Rustomata.Props.C58_violated",
    "Rustomata.Props.C58_discodop_no_error",
    "Rustomata.Props.C58_discodop_panics_partial",
    "Rustomata.Props.C58_discodop_cut",
    "Rustomata.Props.C58_lexicon_no_error",
    "Rustomata.Props.C58_lexicon_cut",
    "Rustomata.Props.C58_rparse_error",
    "Rustomata.Props.C58_rparse_cut",
    "Rustomata.Props.C58_rparse_weight"
   ],
   "note": "The claim is false: the reader of disco-dop rules never returns an error, all readers drop the rest of a file from the first unreadable line on, and the rparse reader panics on an unreadable weight. Proved: exactly which errors and panics are possible and what is dropped."
  },
  {
   "property": "C59",
   "status": "proved",
   "theorems": [
    "Rustomata.Props.C59_default_lexer",
    "Rustomata.Props.C59_weight"
   ],
   "note": "The order of the entries (hash map) is that of an association list; the statement does not depend on it."
  },
  {
   "property": "C60",
   "status": "proved",
   "theorems": [
    "Rustomata.Props.C60_fs_instruction",
    "Rustomata.Props.C60_ts_instruction",
    "Rustomata.Props.C60_fs_transition",
    "Rustomata.Props.C60_ts_transition",
    "Rustomata.Props.C60_fsa",
    "Rustomata.Props.C60_fsa_error",
    "Rustomata.Props.C60_tsa",
    "Rustomata.Props.C60_tsa_error"
   ],
   "note": "White space is that of Unicode, in UTF-8."
  },
  {
   "property": "C61",
   "status": "partial",
   "theorems": [
    "Rustomata.Props.C61_ts_transition",
    "Rustomata.Props.C61_tsa_partial",
    "Rustomata.Props.C61_tsa_zero_partial",
    "Rustomata.Props.C61_tsa_violated",
    "Rustomata.Props.C61_fs_transition",
    "Rustomata.Props.C61_fsa_unreadable",
    "Rustomata.Props.C61_fsa_violated"
   ],
   "note": "Proved for transitions of tree stack automata and for tree stack automata whose initial symbol has the text 0. False otherwise: the number of the initial symbol is printed instead of the symbol, and instructions of finite state automata are printed without the parentheses that the parser requires, so that no printed finite state automaton with a transition can be parsed."
  },
  {
   "property": "C62",
   "status": "partial",
   "theorems": [
    "Rustomata.Props.C62_fsa_violated",
    "Rustomata.Props.C62_tsa_violated",
    "Rustomata.Props.C62_transition_partial",
    "Rustomata.Props.C62_transition_panics",
    "Rustomata.Props.C62_fsa_partial",
    "Rustomata.Props.C62_tsa_partial"
   ],
   "note": "The claim is false: malformed weights and instructions panic (unwrap). Proved: these are the only causes."
  },
  {
   "property": "C63",
   "status": "partial",
   "theorems": [
    "Rustomata.Props.C63_configuration",
    "Rustomata.Props.C63_transition",
    "Rustomata.Props.C63_item",
    "Rustomata.Props.C63_configuration_violated",
    "Rustomata.Props.C63_transition_violated",
    "Rustomata.Props.C63_partial_cmp_violated",
    "Rustomata.Props.C63_cfg_rule",
    "Rustomata.Props.C63_pmcfg_rule",
    "Rustomata.Props.C63_pushdown",
    "Rustomata.Props.C63_pushdown_pointer",
    "Rustomata.Props.C63_pointer_violated",
    "Rustomata.Props.C63_tree_stack",
    "Rustomata.Props.C63_tree_stack_pointer",
    "Rustomata.Props.C63_tree_stack_meaning",
    "Rustomata.Props.C63_gorn_tree",
    "Rustomata.Props.C63_weights",
    "Rustomata.Props.C63_backtrace",
    "Rustomata.Props.C63_equivalence_relation",
    "Rustomata.Props.C63_from_classes_violated",
    "Rustomata.Props.C63_hash_separates",
    "Rustomata.Props.C63_backtrace_hash"
   ],
   "note": "All laws are proved, except that cmp of configurations, transitions, items and rules compares weights that == ignores: there cmp says Equal iff the values and the weights are equal, and the agreement of cmp with == is refuted by a witness. partial_cmp treats incomparable weights as equal, which breaks transitivity (witness). Sharing is observable for symbols with a non-reflexive == (witness). Relations built from a vector of classes that lists members of the default class are not equal although they agree everywhere (witness)."
  },
  {
   "property": "C64",
   "status": "partial",
   "theorems": [
    "Rustomata.Props.C64_class",
    "Rustomata.Props.C64_total",
    "Rustomata.Props.C64_relation",
    "Rustomata.Props.C64_project_partial",
    "Rustomata.Props.C64_violated"
   ],
   "note": "The accepted texts are characterised exactly (C64_class, C64_relation), and there are no panics. Violated as stated: text after a class on the same line is ignored, so that `a [1] b [2]` silently drops the class b (C64_violated). C64_project_partial gives the classes of all elements for files with distinct labels and one default class (a repeated label replaces the earlier class, see C52_lines_violated)."
  },
  {
   "property": "C65",
   "status": "partial",
   "theorems": [
    "Rustomata.Props.C65_cfg_rule",
    "Rustomata.Props.C65_pmcfg_rule",
    "Rustomata.Props.C65_cfg",
    "Rustomata.Props.C65_pmcfg",
    "Rustomata.Props.C65_lcfrs",
    "Rustomata.Props.C65_fs_transition",
    "Rustomata.Props.C65_ts_transition",
    "Rustomata.Props.C65_fsa",
    "Rustomata.Props.C65_tsa",
    "Rustomata.Props.C65_violated"
   ],
   "note": "For all parsers, the accepted texts and their values are characterised exactly by a grammar of the file format (Spec/Reading, Spec/RuleReads). The last part of the claim is violated for PMCFG rules (C65_violated) and transitions, which ignore text after the rule; context-free rules allow only comments there (C65_cfg_rule)."
  },
  {
   "property": "C66",
   "status": "partial",
   "theorems": [
    "Rustomata.Props.C66_split",
    "Rustomata.Props.C66_line_partial",
    "Rustomata.Props.C66_command_partial",
    "Rustomata.Props.C66_claim_partial",
    "Rustomata.Props.C66_long",
    "Rustomata.Props.C66_form",
    "Rustomata.Props.C66_root_violated",
    "Rustomata.Props.C67_command_partial"
   ],
   "note": "How lines are split is proved in full (C66_split: also exactly when it panics; C66_form, C66_long: the command panics for lines of the wrong form and for more than 256 words). The output is proved for grammars in which each nonterminal with a terminal rule has only rules for this terminal, without cycles of single variables, and without terminal rules for the initial nonterminal (C66_line_partial, C66_command_partial; for all options, also the empty line). Without the last condition the claim is violated (C66_root_violated: S -> a panics when printed). Sentences of 256 words are treated in C82. Missing: the classes of grammars that are missing in C54. Reading of options and files, and the lines with statistics in the debug mode (standard error) are not modelled. C67_command_partial is the instance for probabilities."
  },
  {
   "property": "C67",
   "status": "proved",
   "theorems": [
    "Rustomata.Props.C67_factorize",
    "Rustomata.Props.C67_factors",
    "Rustomata.Props.C67_new",
    "Rustomata.Props.C67_unit"
   ],
   "note": "Over the non-negative real numbers; rounding of f64 is not modelled."
  },
  {
   "property": "C68",
   "status": "partial",
   "theorems": [
    "Rustomata.Props.C68_once_partial",
    "Rustomata.Props.C68_derivation",
    "Rustomata.Props.C68_one_to_one_partial",
    "Rustomata.Props.C68_same_rules_violated"
   ],
   "note": "Full for grammars with the hypotheses of C28 in which no two rules differ only in their weights. The claim is violated for rules that differ only in their weights: their transitions for leaving and re-entering a node are built several times, so that derivations are returned several times. Arbitrary grammars are treated in C77 and C78."
  },
  {
   "property": "C69",
   "status": "partial",
   "theorems": [
    "Rustomata.Props.C69_claim_partial",
    "Rustomata.Props.C69_no_panic_partial",
    "Rustomata.Props.C69_sentence_sound_partial",
    "Rustomata.Props.C69_steps",
    "Rustomata.Props.C69_sentence_best_partial",
    "Rustomata.Props.C69_command_sound_partial",
    "Rustomata.Props.C69_command_best_partial",
    "Rustomata.Props.C69_grammar",
    "Rustomata.Props.C69_empty_violated",
    "Rustomata.Props.C69_violated",
    "Rustomata.Props.C69_root_violated"
   ],
   "note": "Proved for grammars as in C68 whose rules have a single terminal or none, and none for initial nonterminals, and for lines with words; lines without words and terminal rules for initial nonterminals lead to a panic (witnesses)."
  },
  {
   "property": "C70",
   "status": "partial",
   "theorems": [
    "Rustomata.Props.C70_fsa",
    "Rustomata.Props.C70_pda",
    "Rustomata.Props.C70_tsa",
    "Rustomata.Props.C70_fsa_found",
    "Rustomata.Props.C70_pda_found",
    "Rustomata.Props.C70_tsa_found",
    "Rustomata.Props.C70_pmcfg_partial",
    "Rustomata.Props.C70_pmcfg_found_partial",
    "Rustomata.Props.C70_sentence_partial",
    "Rustomata.Props.C70_probabilities",
    "Rustomata.Props.C70_claim_partial",
    "Rustomata.Props.C70_violated"
   ],
   "note": "Fairness and its converse are proved for all automata; for grammars as in C28 and C69. The claim without a condition on the weights is violated by left recursion of weight one (witness). Arbitrary grammars are treated in C77 and C78."
  },
  {
   "property": "C71",
   "status": "partial",
   "theorems": [
    "Rustomata.Props.C71_fsa",
    "Rustomata.Props.C71_pda",
    "Rustomata.Props.C71_tsa",
    "Rustomata.Props.C71_pmcfg_partial",
    "Rustomata.Props.C71_left_recursion_partial",
    "Rustomata.Props.C71_sentence_partial",
    "Rustomata.Props.C71_command_partial",
    "Rustomata.Props.C71_claim_partial",
    "Rustomata.Props.C71_violated"
   ],
   "note": "The characterisation is proved for all automata; for grammars as in C28 and C69. The claim for all grammars is violated by left recursion (witness). Arbitrary grammars are treated in C77 and C78."
  },
  {
   "property": "C72",
   "status": "proved",
   "theorems": [
    "Rustomata.Props.C72_word",
    "Rustomata.Props.C72_ends",
    "Rustomata.Props.C72_all",
    "Rustomata.Props.C72_fair"
   ],
   "note": "For all grammars. C72_ends covers words with unknown symbols; C72_fair needs weights that do not increase."
  },
  {
   "property": "C73",
   "status": "proved",
   "theorems": [
    "Rustomata.Props.C73_no_panic",
    "Rustomata.Props.C73_sentence_sound",
    "Rustomata.Props.C73_sentence_best",
    "Rustomata.Props.C73_sentence_ends",
    "Rustomata.Props.C73_sentence_fair",
    "Rustomata.Props.C73_steps",
    "Rustomata.Props.C73_command_sound",
    "Rustomata.Props.C73_command_best",
    "Rustomata.Props.C73_command_total",
    "Rustomata.Props.C73_grammar"
   ],
   "note": "Debug of configurations is a parameter. Best-first needs weights that do not increase (totals of rules and of initial nonterminals)."
  },
  {
   "property": "C74",
   "status": "proved",
   "theorems": [
    "Rustomata.Props.C74_automaton",
    "Rustomata.Props.C74_language",
    "Rustomata.Props.C74_ends",
    "Rustomata.Props.C74_command",
    "Rustomata.Props.C74_command_total",
    "Rustomata.Props.C74_panic"
   ],
   "note": "Debug of the first parse is a parameter. Addition of weights has to be commutative; best-first needs weights that do not increase."
  },
  {
   "property": "C75",
   "status": "proved",
   "theorems": [
    "Rustomata.Props.C75_automaton",
    "Rustomata.Props.C75_short",
    "Rustomata.Props.C75_over",
    "Rustomata.Props.C75_ends",
    "Rustomata.Props.C75_bound",
    "Rustomata.Props.C75_command",
    "Rustomata.Props.C75_command_total",
    "Rustomata.Props.C75_panic",
    "Rustomata.Props.C75_over_violated"
   ],
   "note": "Debug of the first parse is a parameter. C75_over_violated: the claim that each word of the PMCFG is accepted fails for components that end with two terminals. The bound needs the hypotheses of C28; best-first needs weights of transitions that do not increase."
  },
  {
   "property": "C76",
   "status": "proved",
   "theorems": [
    "Rustomata.Props.C76_no_panic",
    "Rustomata.Props.C76_sentence_sound",
    "Rustomata.Props.C76_sentence_best",
    "Rustomata.Props.C76_steps",
    "Rustomata.Props.C76_sentence_ends",
    "Rustomata.Props.C76_sentence_fair",
    "Rustomata.Props.C76_command_sound",
    "Rustomata.Props.C76_command_best",
    "Rustomata.Props.C76_command_total",
    "Rustomata.Props.C76_command_reading",
    "Rustomata.Props.C76_panic"
   ],
   "note": "Debug of sentences and runs are parameters. The command line is not modelled; the option coarse-to-fine has no effect in the code (it asks for an argument that does not exist)."
  },
  {
   "property": "C77",
   "status": "proved",
   "theorems": [
    "Rustomata.Props.C77_sound",
    "Rustomata.Props.C77_complete",
    "Rustomata.Props.C77_language",
    "Rustomata.Props.C77_recognise",
    "Rustomata.Props.C77_ast",
    "Rustomata.Props.C77_nondeleting_sound",
    "Rustomata.Props.C77_ordered"
   ],
   "note": "The exact behaviour outside of the restricted form of C28 and C53. Spec/Visits states visits independently of the automaton."
  },
  {
   "property": "C78",
   "status": "proved",
   "theorems": [
    "Rustomata.Props.C78_once",
    "Rustomata.Props.C78_labels",
    "Rustomata.Props.C78_one_to_one",
    "Rustomata.Props.C78_depth",
    "Rustomata.Props.C78_ends",
    "Rustomata.Props.C78_left_recursion",
    "Rustomata.Props.C78_fair",
    "Rustomata.Props.C78_found"
   ],
   "note": "C68, C70 and C71 without the restriction to ordered grammars with short trails. That rules differ in more than their weights is necessary (C68_same_rules_violated)."
  },
  {
   "property": "C79",
   "status": "proved",
   "theorems": [
    "Rustomata.Props.C79_drawing",
    "Rustomata.Props.C79_determines",
    "Rustomata.Props.C79_symbols",
    "Rustomata.Props.C79_shows",
    "Rustomata.Props.C79_no_panic",
    "Rustomata.Props.C79_sentence_sound",
    "Rustomata.Props.C79_sentence_best",
    "Rustomata.Props.C79_steps",
    "Rustomata.Props.C79_sentence_ends",
    "Rustomata.Props.C79_sentence_fair",
    "Rustomata.Props.C79_command_sound",
    "Rustomata.Props.C79_command_best",
    "Rustomata.Props.C79_command_total",
    "Rustomata.Props.C79_panic"
   ],
   "note": "In contrast to C69, lines without words and terminal rules for initial nonterminals do no harm, and the grammar is arbitrary."
  },
  {
   "property": "C80",
   "status": "proved",
   "theorems": [
    "Rustomata.Props.C80_cfg",
    "Rustomata.Props.C80_cfg_panic",
    "Rustomata.Props.C80_relabel",
    "Rustomata.Props.C80_relabel_panic",
    "Rustomata.Props.C80_mcfg",
    "Rustomata.Props.C80_mcfg_panic",
    "Rustomata.Props.C80_not_read",
    "Rustomata.Props.C80_tts",
    "Rustomata.Props.C80_tts_panic",
    "Rustomata.Props.C80_ambiguous_violated",
    "Rustomata.Props.C80_stack"
   ],
   "note": "C80_ambiguous_violated is the witness for the last sentence of the statement."
  },
  {
   "property": "C81",
   "status": "proved",
   "theorems": [
    "Rustomata.Props.C81_enumerates",
    "Rustomata.Props.C81_filled",
    "Rustomata.Props.C81_candidate",
    "Rustomata.Props.C81_prefix",
    "Rustomata.Props.C81_pruned",
    "Rustomata.Props.C81_best",
    "Rustomata.Props.C81_fair",
    "Rustomata.Props.C81_probability_cycles",
    "Rustomata.Props.C81_probabilities",
    "Rustomata.Props.C81_claim_partial",
    "Rustomata.Props.C81_cycle_violated"
   ],
   "note": "The conditions are part of the statement. C81_claim is the claim without the condition on cycles; C81_claim_partial proves it with the condition, and C81_cycle_violated is the witness for the last sentence of the statement."
  },
  {
   "property": "C82",
   "status": "proved",
   "theorems": [
    "Rustomata.Props.C82_no_result",
    "Rustomata.Props.C82_panic",
    "Rustomata.Props.C82_line",
    "Rustomata.Props.C82_command"
   ],
   "note": "Together with C42, C54 and C66 (at most 255 words) this covers all lengths."
  },
  {
   "property": "C83",
   "status": "proved",
   "theorems": [
    "Rustomata.Props.C83_enumerates",
    "Rustomata.Props.C83_filled",
    "Rustomata.Props.C83_parses",
    "Rustomata.Props.C83_pruned",
    "Rustomata.Props.C83_answers",
    "Rustomata.Props.C83_probabilities",
    "Rustomata.Props.C83_once_violated",
    "Rustomata.Props.C83_order_violated"
   ],
   "note": "Covers the grammars without the condition Preterminals of C54; the stronger claims of C54 (once, in order) are refuted for them."
  },
  {
   "property": "C84",
   "status": "proved",
   "theorems": [
    "Rustomata.Props.C84_line",
    "Rustomata.Props.C84_command",
    "Rustomata.Props.C84_probabilities",
    "Rustomata.Props.C84_words_violated"
   ],
   "note": "C66 without the condition Preterminals; that the words of the line are printed is refuted for these grammars."
  },
  {
   "property": "C85",
   "status": "proved",
   "theorems": [
    "Rustomata.Props.C85_pmcfg_rule",
    "Rustomata.Props.C85_pmcfg",
    "Rustomata.Props.C85_lcfrs",
    "Rustomata.Props.C85_pmcfg_error",
    "Rustomata.Props.C85_fs_instruction",
    "Rustomata.Props.C85_ts_instruction",
    "Rustomata.Props.C85_fs_transition",
    "Rustomata.Props.C85_ts_transition",
    "Rustomata.Props.C85_fsa",
    "Rustomata.Props.C85_tsa"
   ],
   "note": "Equivalences that complete C56 and C62 (whose claims fail) and C65."
  },
  {
   "property": "C86",
   "status": "proved",
   "theorems": [
    "Rustomata.Props.C86_disco",
    "Rustomata.Props.C86_lexer",
    "Rustomata.Props.C86_plain",
    "Rustomata.Props.C86_plain_grammar",
    "Rustomata.Props.C86_panics"
   ],
   "note": "Composition of C57, C59, C46, C47, C65, C67, C66 and C84. Weights are nonnegative reals instead of floating point logarithms; gzip and bincode are not modelled."
  },
  {
   "property": "C87",
   "status": "partial",
   "theorems": [
    "Rustomata.Props.C87_limit",
    "Rustomata.Props.C87_acyclic",
    "Rustomata.Props.C87_enough",
    "Rustomata.Props.C87_results",
    "Rustomata.Props.C87_line",
    "Rustomata.Props.C87_command",
    "Rustomata.Props.C87_claim_partial",
    "Rustomata.Props.C87_cycle_violated"
   ],
   "note": "The claim is false for grammars with cycles (C87_cycle_violated: default options, sentence without derivation); it is proved with a limit of the number of candidates, without cycles, and if there are enough derivations. C87_line and C87_command describe the output whenever the search ends."
  },
  {
   "property": "C88",
   "status": "proved",
   "theorems": [
    "Rustomata.Props.C88_cycles",
    "Rustomata.Props.C88_disco",
    "Rustomata.Props.C88_unproductive"
   ],
   "note": "For files of rules without a lexicon (C88_disco); C88_cycles holds with a lexicon too. For sentences with fewer derivations than demanded and no limit the search may not end (C87_cycle_violated)."
  },
  {
   "property": "C89",
   "status": "proved",
   "theorems": [
    "Rustomata.Props.C89_order",
    "Rustomata.Props.C89_error",
    "Rustomata.Props.C89_fsa",
    "Rustomata.Props.C89_pda",
    "Rustomata.Props.C89_tsa",
    "Rustomata.Props.C89_not_associative",
    "Rustomata.Props.C89_no_fading"
   ],
   "note": "Overflow to negative infinity is not considered. The rounding of sums of weights (merged transitions of push-down automata) is arbitrary; the theorems are about the weights after merging."
  },
  {
   "property": "C90",
   "status": "partial",
   "theorems": [
    "Rustomata.Props.C90_sound",
    "Rustomata.Props.C90_pda_sound",
    "Rustomata.Props.C90_demand",
    "Rustomata.Props.C90_one",
    "Rustomata.Props.C90_exact_partial",
    "Rustomata.Props.C90_pda_exact_partial",
    "Rustomata.Props.C90_violated"
   ],
   "note": "Soundness and order are proved for any number of levels. That a parse of each accepted word is found is false (C90_violated): each level considers only the first parse of the level below, which need not come from a parse of the fine automaton. Exactness holds under the stated conditions (C90_exact_partial)."
  },
  {
   "property": "C91",
   "status": "proved",
   "theorems": [
    "Rustomata.Props.C91_enumerates",
    "Rustomata.Props.C91_filled",
    "Rustomata.Props.C91_complete",
    "Rustomata.Props.C91_no_cycle",
    "Rustomata.Props.C91_pruned",
    "Rustomata.Props.C91_fair",
    "Rustomata.Props.C91_answers",
    "Rustomata.Props.C91_probabilities"
   ],
   "note": "Covers C81 without the condition on terminals and C83 without the condition on cycles, except for the order of the results and that each is returned once, which is false in general (C83_order_violated, C83_once_violated). Cycles of weight one are excluded because of C81_cycle_violated."
  },
  {
   "property": "C92",
   "status": "proved",
   "theorems": [
    "Rustomata.Props.C92_limit",
    "Rustomata.Props.C92_acyclic",
    "Rustomata.Props.C92_enough",
    "Rustomata.Props.C92_results",
    "Rustomata.Props.C92_line",
    "Rustomata.Props.C92_command",
    "Rustomata.Props.C92_probabilities",
    "Rustomata.Props.C92_lexer",
    "Rustomata.Props.C92_plain"
   ],
   "note": "Covers C84 without the condition on cycles and C87, C88 without the condition on terminals. The order of the trees and that the words are those of the sentence are false in general (C83_order_violated, C84_words_violated); the search does not end for all sentences (C87_cycle_violated)."
  },
  {
   "property": "C93",
   "status": "partial",
   "theorems": [
    "Rustomata.Props.C93_no_components_violated",
    "Rustomata.Props.C93_consistent",
    "Rustomata.Props.C93_deriv",
    "Rustomata.Props.C93_returns",
    "Rustomata.Props.C93_none",
    "Rustomata.Props.C93_panic",
    "Rustomata.Props.C93_inconsistent",
    "Rustomata.Props.C93_word",
    "Rustomata.Props.C93_same_partial"
   ],
   "note": "The agreement with toderiv is false for nonterminals without components to the left of others (to_mcfg_deriv panics, C93_no_components_violated); C93_same_partial proves it for grammars in which each rule has a component and each nonterminal of a right-hand side has a rule. The functions are not called in the repository."
  },
  {
   "property": "C94",
   "status": "proved",
   "theorems": [
    "Rustomata.Props.C94_rules",
    "Rustomata.Props.C94_rules_panic",
    "Rustomata.Props.C94_lexicon",
    "Rustomata.Props.C94_lexicon_error",
    "Rustomata.Props.C94_rparse",
    "Rustomata.Props.C94_rparse_panic",
    "Rustomata.Props.C94_rparse_error"
   ],
   "note": "The relations of Spec/ImportReads describe the accepted texts without parser combinators."
  },
  {
   "property": "C95",
   "status": "proved",
   "theorems": [
    "Rustomata.Props.C95_partition",
    "Rustomata.Props.C95_deserialize",
    "Rustomata.Props.C95_deserialize_panics",
    "Rustomata.Props.C95_mdl",
    "Rustomata.Props.C95_sorted_mdl"
   ],
   "note": "The value written by serde is a sequence; the bytes of a format are not modelled."
  },
  {
   "property": "C96",
   "status": "proved",
   "theorems": [
    "Rustomata.Props.C96_split",
    "Rustomata.Props.C96_over",
    "Rustomata.Props.C96_noncopying"
   ],
   "note": "Describes the results of the conversion also for the grammars for which C25 is violated."
  },
  {
   "property": "C97",
   "status": "proved",
   "theorems": [
    "Rustomata.Props.C97_derives",
    "Rustomata.Props.C97_generates",
    "Rustomata.Props.C97_injective",
    "Rustomata.Props.C97_transitions",
    "Rustomata.Props.C97_runs",
    "Rustomata.Props.C97_language",
    "Rustomata.Props.C97_total"
   ],
   "note": "The renamed transition is built from PosState::map, TreeStackInstruction::map and map_nonterminals; the only caller that combined them (bin/coarse_to_fine.rs) is not part of the program."
  },
  {
   "property": "C98",
   "status": "partial",
   "theorems": [
    "Rustomata.Props.C98_sorted",
    "Rustomata.Props.C98_ends",
    "Rustomata.Props.C98_zero",
    "Rustomata.Props.C98_large",
    "Rustomata.Props.C98_cfg_sentence",
    "Rustomata.Props.C98_cfg_command",
    "Rustomata.Props.C98_cfg_large",
    "Rustomata.Props.C98_tsa_sentence",
    "Rustomata.Props.C98_tsa_large",
    "Rustomata.Props.C98_plain_sentence",
    "Rustomata.Props.C98_negra_sentence_partial",
    "Rustomata.Props.C98_mcfg_large",
    "Rustomata.Props.C98_violated"
   ],
   "note": "Proved except: the claim that larger beams find the parses of smaller ones is refuted (C98_violated); mcfg parse --negra with a beam is shown for grammars with McfgOk and non-empty sentences, as in C69."
  },
  {
   "property": "C99",
   "status": "partial",
   "theorems": [
    "Rustomata.Props.C99_bfs",
    "Rustomata.Props.C99_unique",
    "Rustomata.Props.C99_lost",
    "Rustomata.Props.C99_mcfg",
    "Rustomata.Props.C99_language",
    "Rustomata.Props.C99_violated"
   ],
   "note": "Proved except: the claim that the conversion keeps the rules for all reachable nonterminals is refuted (C99_violated); C99_mcfg is for non-deleting grammars."
  }
 ]
}
