{"id": "C01", "title": "Search yields only reachable items", "statement": "Every item returned by a Search iterator is one of the given initial items or is obtained from one by repeatedly applying the successor function, whatever agenda (stack, queue, priority heap, beam heap, size-limited heap) is used.", "quantifier": "all item types, initial lists, successor functions, agendas (also lossy ones) and numbers of next() calls", "why_tests_cant": "The graph and the number of steps are unbounded; a test runs one graph with one agenda.", "anchors": ["search/src/search.rs: Search::next, with_agenda", "search/src/agenda/mod.rs: Agenda"]}
{"id": "C02", "title": "Exhausted search has enumerated everything", "statement": "If a Search over a non-dropping agenda returns None, then every reachable item has been returned; the multiset of returned items is exactly the initial items plus all successors of returned items. While it has not returned None, returned plus pending items satisfy the same balance.", "quantifier": "all successor functions, initial lists and non-dropping agendas", "why_tests_cant": "It is a closure statement about all reachable items of an arbitrary graph and all pop orders.", "anchors": ["search/src/search.rs: Search::next, dfs, bfs, weighted", "search/src/agenda/mod.rs: Vec, VecDeque"]}
{"id": "C03", "title": "Breadth-first search misses nothing, even in infinite graphs", "statement": "Search::bfs returns every item reachable from the initial items after finitely many next() calls, in non-decreasing order of distance, even if infinitely many items are reachable.", "quantifier": "all graphs with finite branching and all reachable items", "why_tests_cant": "A liveness statement over infinite graphs; a test only sees a finite prefix.", "anchors": ["search/src/search.rs: Search::bfs", "search/src/agenda/mod.rs: VecDeque"]}
{"id": "C04", "title": "Weighted search is best-first", "statement": "If no successor has a higher priority than its predecessor, Search::weighted returns items in non-increasing priority, and as soon as an item of priority p was returned every reachable item of priority strictly greater than p has already been returned.", "quantifier": "all graphs with non-increasing priorities and all heap tie-breakings", "why_tests_cant": "Needs all graphs and all tie-breaking orders of the heap.", "anchors": ["search/src/search.rs: Search::weighted, next", "search/src/agenda/mod.rs: weighted BinaryHeap"]}
{"id": "C05", "title": "Unique search never repeats an item", "statement": "The iterator produced by uniques() never returns the same item twice, and returns only reachable items.", "quantifier": "all graphs, initial lists (with repetitions) and agendas", "why_tests_cant": "Quantifies over all graphs and unboundedly many steps.", "anchors": ["search/src/search.rs: uniques, unique::Search::next"]}
{"id": "C06", "title": "Unique search stops only when everything reachable was returned", "statement": "When the iterator produced by uniques() over a non-dropping agenda returns None, every reachable item has been returned.", "quantifier": "all graphs, initial lists and non-dropping agendas", "why_tests_cant": "A closure statement over all graphs; it fails only when an item is on the agenda twice, which the tests never do.", "anchors": ["search/src/search.rs: unique::Search::next"]}
{"id": "C07", "title": "Stack and queue agendas", "statement": "Over any sequence of pushes and pops the Vec agenda behaves as a last-in-first-out stack and the VecDeque agenda as a first-in-first-out queue; neither drops or invents items.", "quantifier": "all sequences of operations and all initial contents", "why_tests_cant": "Operation sequences are unbounded.", "anchors": ["search/src/agenda/mod.rs: impl Agenda for Vec, VecDeque"]}
{"id": "C08", "title": "Size-limited heap keeps the best k", "statement": "A LimitedHeap with capacity k never holds more than k items, its content after any pushes is a best-k selection of everything pushed (no discarded item beats a kept one), push reports exactly the discarded item, and pop returns a maximum.", "quantifier": "all capacities, weights and push/pop sequences", "why_tests_cant": "Unbounded sequences, ties and the capacity-zero corner.", "anchors": ["search/src/agenda/limited_heap.rs: LimitedHeap::push, pop", "search/src/agenda/mod.rs"]}
{"id": "C09", "title": "Beam heap keeps exactly the items inside the beam", "statement": "A BeamHeap accepts an item iff it is empty or the item's priority is at least the current best priority times the beam factor; a rejected push leaves the content unchanged and reports false; a new best item is never rejected when the factor is at most one; no later push removes an item.", "quantifier": "all beam factors, weights, and push sequences", "why_tests_cant": "Unbounded sequences and arbitrary weights.", "anchors": ["search/src/agenda/beam_heap.rs: BeamHeap::push"]}
{"id": "C10", "title": "Unique heap holds each item at most once", "statement": "However a UniqueHeap is constructed and used, it never contains the same item twice, the first weight pushed for an item is the one kept, pop returns a maximum with respect to (weight, item) and makes that item insertable again, and into_sorted_vec lists exactly the content in ascending order.", "quantifier": "all construction paths and push/pop sequences", "why_tests_cant": "A data-structure invariant over unbounded operation sequences and every constructor.", "anchors": ["unique-heap/src/lib.rs: push, pop, into_sorted_vec, FromIterator, From<Vec>"]}
{"id": "C11", "title": "VecMultiMap is a total map from indices to lists", "statement": "push_to(i,x) appends x to the list at i and leaves every other index unchanged; get(i) of an untouched index is empty and changes no observable list; conversion to Vec keeps every list and ends with a non-empty one; into_vec_with_size(n) has length n and keeps the lists below n.", "quantifier": "all operation sequences, indices and values", "why_tests_cant": "Unbounded indices and sequences.", "anchors": ["vecmultimap/src/lib.rs"]}
{"id": "C12", "title": "Partition construction and lookup", "statement": "Partition::new succeeds iff the given cells are pairwise disjoint; then get_cell(x) is the unique given cell containing x (None if there is none), alphabet() is the union, and collapse() returns exactly the given non-empty cells, each once.", "quantifier": "all lists of finite sets over any ordered type", "why_tests_cant": "Quantifies over all families of sets.", "anchors": ["src/util/partition.rs: new, get_cell, collapse, alphabet"]}
{"id": "C13", "title": "Persistent pushdown is a stack", "statement": "push/pop/peek/set/map/is_empty on Pushdown agree with the corresponding list operations; conversion from a slice and back to a Vec is the identity, and iteration runs from bottom to top.", "quantifier": "all pushdowns and operation sequences", "why_tests_cant": "Unbounded stacks.", "anchors": ["src/util/push_down.rs"]}
{"id": "C14", "title": "Reverse inverts the order and nothing else", "statement": "Reverse<W> compares in the opposite order (a total order again), while one, zero, multiplication, addition and factorize act as on W, so a maximum-first search over Reverse<W> is a minimum-first search over W.", "quantifier": "all weights", "why_tests_cant": "An order law over an infinite domain.", "anchors": ["src/util/reverse.rs"]}
{"id": "C15", "title": "Integerisation is transparent", "statement": "Translating transitions, storages and words to integers with an integeriser and back is the identity, different symbols get different integers, integers handed out earlier keep their meaning, and applying an instruction commutes with the translation.", "quantifier": "all symbol types, all integeriser histories, all instructions and storages", "why_tests_cant": "Quantifies over all histories of the shared integeriser.", "anchors": ["src/util/integerisable.rs", "src/recognisable/transition.rs: integerise", "src/util/push_down.rs", "src/automata/*"]}
{"id": "C16", "title": "recognise returns only genuine accepting runs", "statement": "Every item returned by recognise(word) carries a sequence of transitions of the automaton which leads from the initial storage to the reported storage, consumes exactly the whole word, ends in a terminal configuration, and whose weight product (times one) is the reported weight.", "quantifier": "all automata over any storage type, all words, all positions in the output", "why_tests_cant": "Automata, words and outputs are unbounded.", "anchors": ["src/recognisable/automaton.rs: recognise", "src/recognisable/transition.rs: apply"]}
{"id": "C17", "title": "recognise loses no accepting run", "statement": "If recognise(word) ends, its output contains each accepting run of the automaton on the word exactly as often as there are ways to execute it; a word containing an unknown terminal has no output.", "quantifier": "all automata and words for which the enumeration ends", "why_tests_cant": "A completeness statement over all runs.", "anchors": ["src/recognisable/automaton.rs: recognise"]}
{"id": "C18", "title": "recognise enumerates by weight", "statement": "If no transition increases weight, recognise(word) enumerates parses in non-increasing weight, and once a parse of weight w has been returned every parse of weight greater than w has been returned before.", "quantifier": "all automata with non-increasing weights and all words, also with infinitely many parses", "why_tests_cant": "All automata, all tie-breakings, possibly infinite outputs.", "anchors": ["src/recognisable/automaton.rs: recognise", "src/recognisable/configuration.rs: Ord"]}
{"id": "C19", "title": "Beam recognition is a sound restriction", "statement": "Every parse returned by recognise_beam_search is a genuine accepting run; with a beam at least as large as the number of items ever waiting the output is that of recognise; the number of waiting items never exceeds the beam.", "quantifier": "all automata, words and beams", "why_tests_cant": "Unbounded automata and agenda histories.", "anchors": ["src/recognisable/automaton.rs: recognise_beam"]}
{"id": "C20", "title": "check_run replays runs", "statement": "check_run(run) returns exactly the storages reachable from the initial storage by executing the run's instructions in order, each with the product of the run's weights.", "quantifier": "all automata and all runs", "why_tests_cant": "All runs of all lengths and nondeterministic instructions.", "anchors": ["src/recognisable/automaton.rs: check_run", "src/util/push_down.rs: iter"]}
{"id": "C21", "title": "Push-down replace instruction", "statement": "Replace(cur,new) is applicable iff cur is the top segment of the store (cur is written top first), and then yields exactly one store in which this segment is replaced by new (new is written bottom first, its last symbol becomes the top) and everything below is untouched; it never panics.", "quantifier": "all stores and instructions, including empty ones", "why_tests_cant": "All stores and segments.", "anchors": ["src/automata/push_down_automaton/mod.rs: replace, PushDownInstruction::apply"]}
{"id": "C22", "title": "CFG and its push-down automaton accept the same weighted derivations", "statement": "For every CFG the automaton built from it accepts a word iff the grammar derives it from an initial nonterminal, and for every leftmost derivation there is an accepting run with the same word and the product of the rule weights as weight, and vice versa.", "quantifier": "all weighted CFGs (including empty and unary rules) and all words", "why_tests_cant": "Language equality over all grammars and words.", "anchors": ["src/automata/push_down_automaton/from_cfg.rs", "src/grammars/cfg/mod.rs"]}
{"id": "C23", "title": "Building a push-down automaton merges only equal transitions", "statement": "The automaton built from a list of transitions contains, for each pair of word and instruction in the list, exactly one transition, whose weight is the sum of the weights of all its occurrences; nothing else is added and nothing is lost.", "quantifier": "all transition lists", "why_tests_cant": "All lists and multiplicities.", "anchors": ["src/automata/push_down_automaton/mod.rs: PushDownAutomaton::new, list_transitions"]}
{"id": "C24", "title": "Finite state automaton acceptance", "statement": "An FSA built from transitions accepts a word iff there is a path from the initial state to one of the final states whose labels concatenate to the word.", "quantifier": "all finite automata (with word-labelled and empty transitions) and words", "why_tests_cant": "All automata and words.", "anchors": ["src/automata/finite_state_automaton/"]}
{"id": "C25", "title": "PMCFG to CFG conversion preserves the language", "statement": "Converting a PMCFG in which every rule has one component to a CFG preserves the generated weighted language.", "quantifier": "all PMCFGs accepted by the conversion", "why_tests_cant": "Language equality over all grammars; copying and deleting rules are never tested.", "anchors": ["src/grammars/cfg/from_pmcfg.rs"]}
{"id": "C26", "title": "Mcfg::from_pmcfg accepts exactly the linear grammars with one initial symbol", "statement": "The conversion of a PMCFG into an Mcfg succeeds iff there is exactly one initial nonterminal and no rule uses a variable twice; then rules and initial symbol are unchanged.", "quantifier": "all PMCFGs", "why_tests_cant": "All grammars.", "anchors": ["src/grammars/mcfg/mod.rs"]}
{"id": "C27", "title": "Tree stack operations act on a labelled tree with a pointer", "statement": "new, push, up, down, set, push_next, ups and to_tree of TreeStack agree with an abstract pair of a partial map from addresses to labels and a pointer; failing operations leave the tree stack unchanged; no operation panics; the domain stays prefix-closed and the pointer stays inside.", "quantifier": "all histories of tree-stack operations", "why_tests_cant": "Unbounded histories and branching; zipper structure.", "anchors": ["src/automata/tree_stack_automaton/tree_stack.rs"]}
{"id": "C28", "title": "PMCFG to tree-stack automaton preserves the language", "statement": "For every PMCFG, the tree-stack automaton built from it accepts exactly the words the grammar generates.", "quantifier": "all PMCFGs and words", "why_tests_cant": "Language equality over all grammars.", "anchors": ["src/automata/tree_stack_automaton/from_pmcfg.rs"]}
{"id": "C29", "title": "Tree-stack approximation is an over-approximation", "statement": "The push-down approximation of a tree stack (tts) simulates it: whenever an instruction leads from one tree stack to another, the approximated instruction leads from the approximated store to the approximated result, so every accepting run is mapped to an accepting run over the same word.", "quantifier": "all tree-stack automata, instructions, tree stacks, runs", "why_tests_cant": "A simulation over all stores and runs.", "anchors": ["src/approximation/tts.rs"]}
{"id": "C30", "title": "Relabelling is an over-approximation", "statement": "Relabelling push-down symbols by any mapping simulates the automaton: every accepting run is mapped to an accepting run over the same word that ends in the relabelled store, with the same weight if no two transitions become equal up to weights, and at least as good otherwise (if a sum is at least as good as its summands).", "quantifier": "all relabellings, push-down automata and runs", "why_tests_cant": "A simulation over all runs.", "anchors": ["src/approximation/relabel.rs", "src/approximation/equivalence_classes.rs"]}
{"id": "C31", "title": "Undoing an approximation gives exactly the preimages of a run", "statement": "unapproximate_run of a run of the approximated automaton returns exactly the sequences of original transitions that are mapped to it, each once.", "quantifier": "all automata, approximations and runs of the approximated automaton", "why_tests_cant": "All runs, all multiplicities; fails only if several transitions are mapped to one.", "anchors": ["src/approximation/mod.rs: ApproximationInstance::approximate_transition, unapproximate_run"]}
{"id": "C32", "title": "Coarse-to-fine recognition returns the parses of the fine automaton", "statement": "Coarse-to-fine recognition of a word returns the same parses as recognition with the fine automaton, in non-increasing weight.", "quantifier": "all fine automata, approximations and words", "why_tests_cant": "All automata and words; fails only if there is more than one coarse parse.", "anchors": ["src/recognisable/coarse_to_fine.rs"]}
{"id": "C33", "title": "Dyck word recognition", "statement": "dyck::recognize(w) is true iff w is generated by S \u2192 \u03b5 | S S | (a S )a.", "quantifier": "all bracket words over any alphabet", "why_tests_cant": "All words.", "anchors": ["src/dyck/mod.rs: recognize"]}
{"id": "C34", "title": "Multiple Dyck word recognition", "statement": "MultipleDyckLanguage::recognize(w) is true iff the brackets of w are well nested and can be grouped such that each group contains each symbol of one cell of the partition exactly once and the pairs of one group are directly enclosed by pairs of a common group (or by none); recognition always terminates.", "quantifier": "all partitions and bracket words", "why_tests_cant": "All partitions, words and groupings.", "anchors": ["src/dyck/multiple/mod.rs", "src/dyck/multiple/automaton/"]}
{"id": "C35", "title": "Lcfrs::new accepts exactly the LCFRS", "statement": "Lcfrs::new succeeds iff each nonterminal has one fanout, the initial nonterminal has fanout one, and in each rule each variable (i,j) with j below the fanout of the i-th nonterminal of the right-hand side occurs exactly once and no other variable occurs.", "quantifier": "all rule lists and initial symbols", "why_tests_cant": "All rule lists; corner cases with fanout zero or nonterminals without rules.", "anchors": ["src/grammars/lcfrs/mod.rs: Lcfrs::new, read_fanouts, check_composition"]}
{"id": "C36", "title": "Mcfg to Lcfrs conversion preserves the language", "statement": "The LCFRS obtained from an Mcfg generates the same words with the same derivation weights, and every resulting rule is non-deleting.", "quantifier": "all Mcfgs", "why_tests_cant": "Language equality over all grammars.", "anchors": ["src/grammars/lcfrs/conversion.rs"]}
{"id": "C37", "title": "evaluate computes the yield of a derivation", "statement": "evaluate of the composition tree of a derivation is the tuple obtained by recursively substituting the children's components for the variables; it panics exactly when a used child or component is missing; children that are not used do not matter.", "quantifier": "all composition trees", "why_tests_cant": "All trees.", "anchors": ["src/grammars/pmcfg/mod.rs: evaluate, evaluate_pos, to_term"]}
{"id": "C38", "title": "separate_terminal_rules keeps the word and establishes its normal form", "statement": "separate_terminal_rules yields a tree in which each rule has either exactly one terminal and no variable or only variables, and with the same evaluation as the original tree.", "quantifier": "all derivation trees", "why_tests_cant": "All trees and rules; the documented normal form fails for particular shapes.", "anchors": ["src/grammars/pmcfg/mod.rs: separate_terminal_rules"]}
{"id": "C39", "title": "Chart cells do not collide", "statement": "The chart's index function maps the spans (i,j), i<j\u2264n, of a word of length n to distinct positions, exactly filling the allocated table; reading an entry returns the last one added to that span and nonterminal.", "quantifier": "all word lengths, spans, states", "why_tests_cant": "Arithmetic for all n.", "anchors": ["src/grammars/lcfrs/csparsing/automaton/chart.rs"]}
{"id": "C40", "title": "Rule filtering keeps exactly the useful rules", "statement": "For a word, the rule mask keeps a rule iff all nonterminals of its right-hand side can derive something from the word's terminals, and the rule is reachable from the initial nonterminal using only such rules.", "quantifier": "all grammars and words", "why_tests_cant": "A pair of fixed points over all grammars.", "anchors": ["src/grammars/lcfrs/csparsing/automaton/rulemask.rs"]}
{"id": "C41", "title": "Outside estimates never underestimate", "statement": "Every parse of a word has a weight of at most the product of the inside weight of any of its sub-parses and the outside estimate for that sub-parse's state and span, so discarding items by estimate zero loses no parse.", "quantifier": "all grammars with weights at most one, words and parses", "why_tests_cant": "All grammars and derivations.", "anchors": ["src/grammars/lcfrs/csparsing/automaton/estimates.rs"]}
{"id": "C42", "title": "Chart entries are genuine derivations", "statement": "Every entry in the filled chart is the weight of a derivation of that span from that state, and without pruning the best derivation of each span is present.", "quantifier": "all grammars, words, beams, thresholds", "why_tests_cant": "All grammars and words.", "anchors": ["src/grammars/lcfrs/csparsing/automaton/mod.rs: fill_chart"]}
{"id": "C43", "title": "Candidate bracket words are Dyck words that spell the sentence", "statement": "Every candidate bracket word enumerated for a sentence is a Dyck word whose sequence of terminal brackets is the sentence.", "quantifier": "all grammars, sentences and candidates", "why_tests_cant": "All derivations.", "anchors": ["src/grammars/lcfrs/csparsing/kbest/mod.rs", "src/grammars/lcfrs/csparsing/mod.rs"]}
{"id": "C44", "title": "Candidates are enumerated by weight", "statement": "The k-best enumeration returns candidates in non-increasing weight without repeating a derivation and, when it ends, has returned every derivation in the chart.", "quantifier": "all charts and numbers of candidates", "why_tests_cant": "All charts, all k.", "anchors": ["src/grammars/lcfrs/csparsing/kbest/mod.rs: kth"]}
{"id": "C45", "title": "toderiv accepts exactly the bracket words of derivations", "statement": "toderiv returns a derivation for every bracket word that encodes a derivation of the grammar, namely that derivation, and returns None if two components at one position disagree on the rule.", "quantifier": "all grammars and derivations", "why_tests_cant": "All derivations.", "anchors": ["src/grammars/lcfrs/csparsing/mod.rs: toderiv", "src/grammars/lcfrs/csparsing/cowderiv.rs"]}
{"id": "C46", "title": "Imported discodop grammars are normalised", "statement": "In a grammar imported from discodop counts, the weights of all rules (phrasal and lexical) with the same left-hand side sum to one.", "quantifier": "all rule and lexicon files", "why_tests_cant": "All grammars.", "anchors": ["src/grammars/lcfrs/from_discodop.rs"]}
{"id": "C47", "title": "Imported yield functions are linear and ordered", "statement": "The composition obtained from rparse or discodop yield descriptions uses each variable exactly once, numbers the components of each child from left to right starting with 0, and preserves the described order of children.", "quantifier": "all yield descriptions", "why_tests_cant": "All yield descriptions.", "anchors": ["src/grammars/lcfrs/from_rparse.rs", "src/grammars/lcfrs/from_discodop.rs"]}
{"id": "C48", "title": "Printing and parsing rules are inverse", "statement": "Parsing the printed form of a CFG or PMCFG rule returns the rule.", "quantifier": "all rules whose symbols contain no quotes, separators or white space problems", "why_tests_cant": "All symbol strings.", "anchors": ["src/util/parsing.rs", "src/grammars/cfg/", "src/grammars/pmcfg/"]}
{"id": "C49", "title": "NEGRA export", "statement": "The NEGRA export of a derivation that satisfies the export's criteria lists the terminals of the word in order, numbers the inner nodes consecutively from 500, gives each node the number of its parent (0 for children of the root), and lists each inner node exactly once.", "quantifier": "all derivations satisfying the criteria", "why_tests_cant": "All trees.", "anchors": ["src/grammars/pmcfg/negra.rs"]}
{"id": "C50", "title": "Depth-first search enumerates in pre-order", "statement": "If the part of the graph below the initial items is a finite forest (unfolded by the successor function), Search::dfs returns exactly its pre-order listing: an item, then everything below its last successor, then everything below the last but one, and so on; the last initial item comes first.", "quantifier": "all initial lists and successor functions with finite unfolding", "why_tests_cant": "The order is determined by the interplay of agenda and successor lists for arbitrarily deep and branching graphs; a test fixes one graph.", "anchors": ["search/src/search.rs: Search::dfs, Search::next", "search/src/agenda/mod.rs: Vec"]}
{"id": "C51", "title": "Recognition never panics", "statement": "For every automaton that was successfully built and every word, every call of next on the iterator returned by recognise returns (Some or None) instead of panicking.", "quantifier": "all automata and words, all numbers of calls", "why_tests_cant": "A panic needs a particular reachable storage; tests explore a few automata only.", "anchors": ["src/automata/push_down_automaton/mod.rs:286-299", "src/recognisable/automaton.rs:60-110"]}
{"id": "C52", "title": "Equivalence relations put every element into the class that lists it", "statement": "EquivalenceRelation::new_safe succeeds iff no class is named like the default class and the classes are disjoint; project then gives the class that lists an element, or the default class. The same holds for a relation read from text, line by line, and for one made from a vector of classes (where a later class wins).", "quantifier": "all lists of classes, elements and default classes", "why_tests_cant": "All combinations of classes and element lists, including repeated labels.", "anchors": ["src/approximation/equivalence_classes.rs"]}
{"id": "C53", "title": "The abstract syntax tree of a tree-stack parse is a derivation", "statement": "For every parse that the tree-stack automaton of a PMCFG returns for a word, to_abstract_syntax_tree of its tree stack does not panic and is a derivation of this word with the weight of the parse, and every derivation of the word is obtained in this way.", "quantifier": "all PMCFGs, words and returned parses", "why_tests_cant": "Ranges over all grammars, words and runs; unit tests only convert hand-written trees.", "anchors": ["src/automata/tree_stack_automaton/from_pmcfg.rs: to_abstract_syntax_tree", "src/bin/pmcfg.rs"]}
{"id": "C54", "title": "The Chomsky-Schützenberger parser returns the derivations of the sentence", "statement": "For an LCFRS in normal form with weights of at most one, CSRepresentation::new does not panic, and the iterator of parse (without beam and delta) yields the derivations of the sentence, each exactly once, in the order of descending weight, and then ends; a limit on the number of candidates or an early stop yields a prefix. With a beam or delta, it yields derivations of the sentence, each at most once and in the same order.", "quantifier": "all LCFRS in normal form, weights, hash orders, sentences of 1 to 255 words, parser options", "why_tests_cant": "Needs the whole pipeline (binarised automaton, rule mask, outside estimates, chart, k-best enumeration, read-off) for all grammars and sentences; completeness and order over all derivations cannot be sampled.", "anchors": ["src/grammars/lcfrs/csparsing/mod.rs", "src/grammars/lcfrs/csparsing/automaton/mod.rs"]}
{"id": "C55", "title": "The fallback is a derivation of the sentence with merged rules", "statement": "For a candidate of the context-free approximation that is not a derivation of the LCFRS, CowDerivation::fallback does not panic and returns a tree that is a derivation of the sentence from the initial nonterminal with rules of weight zero, each of which is merged component by component from rules of the grammar with the same left-hand side (so that to_term and evaluate give the sentence). with_fallback returns a fallback whenever the sentence has a derivation; debug reports a best derivation if there is one, otherwise a fallback if there is a candidate, otherwise no parse.", "quantifier": "all LCFRS in normal form, sentences, parser options, candidates", "why_tests_cant": "Merging renumbers nonterminals across rules for arbitrary groups of components; a test fixes one inconsistent candidate.", "anchors": ["src/grammars/lcfrs/csparsing/cowderiv.rs: CowDerivation::new, fallback, merge_rules, fallback_vec, collect_children", "src/grammars/lcfrs/csparsing/mod.rs: with_fallback, debug"]}
{"id": "C56", "title": "Parsing a text does not panic", "statement": "Parsing a text as a CFG rule, a CFG, or a PMCFG rule (FromStr) returns a value or an error; it does not panic.", "quantifier": "all texts, all symbol and weight types", "why_tests_cant": "All texts.", "anchors": ["src/grammars/cfg/from_str.rs", "src/grammars/pmcfg/from_str.rs", "src/util/parsing.rs"]}
{"id": "C57", "title": "Grammar files of disco-dop and rparse are imported as described", "statement": "Reading a file of disco-dop rules and a lexicon (or a file of rparse clauses) and converting the result to an Lcfrs yields exactly one rule per line (per word and tag), with the left-hand side, right-hand side, yield function and (normalised) weight that the line describes, and the initial nonterminal ROOT (VROOT1).", "quantifier": "all files in the format, with any amount of blanks between the fields", "why_tests_cant": "All files, symbols and yield functions.", "anchors": ["src/grammars/lcfrs/from_discodop.rs: parse_discodop_constituents, parse_discodop_lexer, From<DiscoDopGrammar> for Lcfrs", "src/grammars/lcfrs/from_rparse.rs: parse_rparse_clauses, Into<Lcfrs>"]}
{"id": "C58", "title": "Malformed grammar files are reported", "statement": "Reading a text that is not a file of rules in the format of disco-dop or rparse returns an error; it neither panics nor returns only a part of the rules.", "quantifier": "all texts", "why_tests_cant": "All texts that are not in the format.", "anchors": ["src/grammars/lcfrs/from_discodop.rs: FromStr for DiscoDopGrammar, DiscoLexer", "src/grammars/lcfrs/from_rparse.rs: FromStr for RparseClauses"]}
{"id": "C59", "title": "The default lexicon has exactly the nonterminals without rules", "statement": "with_default_lexer adds one lexical entry with weight one, whose word is the nonterminal itself, for exactly those nonterminals that occur on a right-hand side but on no left-hand side; after the import each of them has exactly one rule, of weight one.", "quantifier": "all grammars", "why_tests_cant": "The flag of a nonterminal depends on the order in which left- and right-hand sides are visited.", "anchors": ["src/grammars/lcfrs/from_discodop.rs: with_default_lexer"]}
{"id": "C60", "title": "Automata are read as their files describe", "statement": "Parsing a text that consists of lines with an initial state (symbol), a list of final states, transitions, comments, and empty lines yields the automaton with exactly the transitions of the file in their order (with weight one where no weight is given), the last declared initial state (symbol) and the last declared final states; a file without initial state or final states is an error.", "quantifier": "all texts in the format, with any amount of blanks, comments, quoted and unquoted symbols, both line endings", "why_tests_cant": "All texts in the format.", "anchors": ["src/automata/finite_state_automaton/from_str.rs", "src/automata/tree_stack_automaton/from_str.rs", "src/recognisable/from_str.rs"]}
{"id": "C61", "title": "Printed automata can be parsed", "statement": "Parsing the text that is printed for a finite state automaton or a tree stack automaton gives an automaton with the same transitions, initial and final states.", "quantifier": "all automata whose symbols, terminals and weights can be recovered from their text", "why_tests_cant": "All automata.", "anchors": ["src/automata/finite_state_automaton/mod.rs: Display", "src/automata/tree_stack_automaton/mod.rs: Display", "src/automata/tree_stack_automaton/tree_stack_instruction.rs: Display", "src/recognisable/transition.rs: Display"]}
{"id": "C62", "title": "Parsing an automaton does not panic", "statement": "Parsing a text as a finite state automaton or a tree stack automaton returns an automaton or an error.", "quantifier": "all texts", "why_tests_cant": "All texts.", "anchors": ["src/automata/finite_state_automaton/from_str.rs", "src/automata/tree_stack_automaton/from_str.rs", "src/recognisable/from_str.rs"]}
{"id": "C63", "title": "Equality, hashing and order agree", "statement": "For every type that implements these traits by hand: `==` is an equivalence relation, equal values have equal hashes, `cmp` is a total preorder, `partial_cmp` agrees with `cmp`, and `cmp` says `Equal` exactly for equal values. Pointer comparisons inside `==` cannot be observed. Two tree stacks are equal exactly if they show the same tree and pointer.", "quantifier": "all values of Configuration, Transition, Item, CFGRule, PMCFGRule, Pushdown, TreeStack, Reverse, WeightedItem, IndexedBacktrace, GornTree, EquivalenceRelation, for all lawful type parameters", "why_tests_cant": "The laws quantify over all triples of values and all type parameters.", "anchors": ["src/recognisable/configuration.rs", "src/recognisable/transition.rs", "src/recognisable/mod.rs: Item", "src/util/push_down.rs: PartialEq", "src/util/reverse.rs", "src/util/tree.rs: PartialEq", "src/automata/tree_stack_automaton/tree_stack.rs: PartialEq, PartialOrd, Ord", "src/grammars/cfg/mod.rs: CFGRule", "src/grammars/pmcfg/mod.rs: PMCFGRule", "src/grammars/lcfrs/csparsing/automaton/kbest/backtrace.rs", "src/approximation/equivalence_classes.rs: PartialEq", "search/src/agenda/weighted.rs"]}
{"id": "C64", "title": "Reading equivalence relations", "statement": "EquivalenceRelation::from_str succeeds exactly on the texts whose nonempty lines each consist of a label followed by `*` or by a list of elements in brackets, where the classes are disjoint, exactly one of them is the default class; the result projects each element to the class that lists it and each other element to the default class. Every other text gives an error; no text leads to a panic.", "quantifier": "all byte strings, all implementations of FromStr for labels and elements", "why_tests_cant": "All texts; the existing tests show a dozen of lines.", "anchors": ["src/approximation/equivalence_classes.rs: FromStr for EquivalenceRelation, FromStr for EquivalenceClass, parse_class, parse_set"]}
{"id": "C65", "title": "Which texts are accepted as rules, grammars, transitions and automata", "statement": "from_str of CFGRule, PMCFGRule, CFG, PMCFG, Lcfrs, Transition, FiniteStateAutomaton and TreeStackAutomaton returns a value exactly for the texts of the file format, and returns the value that the text denotes; in particular, text that is neither part of the format nor a comment is rejected.", "quantifier": "all byte strings, all implementations of FromStr for symbols and weights", "why_tests_cant": "The claim is about all texts, including all malformed ones.", "anchors": ["src/util/parsing.rs", "src/grammars/cfg/from_str.rs", "src/grammars/pmcfg/from_str.rs", "src/grammars/lcfrs/from_str.rs", "src/recognisable/from_str.rs", "src/automata/finite_state_automaton/from_str.rs", "src/automata/tree_stack_automaton/from_str.rs"]}
{"id": "C66", "title": "The command csparsing parse prints the best parse trees of each line", "statement": "For each line of the standard input, the command parse reads the number of the line, the words and their part-of-speech tags, and prints in the export format the k best derivations of the sentence in the order of their weights; if there is none, it prints the fallback if it is demanded and exists, or a NOPARSE node. The outputs come in the order of the lines, and the command does not panic for lines of the right form with at most 255 words.", "quantifier": "all grammars in normal form with weights of at most one, all texts, all options (beam, delta, candidates, k, with-lines, with-pos, debug, fallback)", "why_tests_cant": "The claim is about all grammars, all texts and all options.", "anchors": ["src/bin/csparsing.rs", "src/grammars/lcfrs/csparsing/mod.rs", "src/grammars/pmcfg/negra.rs"]}
{"id": "C67", "title": "Factorisation of weights", "statement": "factorize(n) returns n equal weights whose product is the weight (n > 0). If the weight is a probability, then the factors are probabilities that are not less than the weight, and they are zero only if the weight is zero. Hence CSRepresentation::new does not panic for grammars in normal form whose weights are probabilities other than zero and for estimates of a width of at most 255.", "quantifier": "all weights, all numbers of factors, all grammars in normal form", "why_tests_cant": "The claim is about all weights and all grammars.", "anchors": ["src/util/factorizable.rs", "src/grammars/lcfrs/csparsing/automaton/mod.rs"]}
{"id": "C68", "title": "Each derivation is returned once by the tree stack automaton of a PMCFG", "statement": "For an ordered PMCFG with short trails, recognise of its tree stack automaton returns one parse for each derivation of the word: each parse with a non-empty run shows (by to_abstract_syntax_tree) one derivation, whose weight is the weight of the parse, and, when recognition has ended, each derivation of the word is shown by exactly one returned parse. With a beam, no derivation is returned twice.", "quantifier": "all grammars, all words, all agendas, all numbers of steps", "why_tests_cant": "The claim is about all grammars, words and orders of the search.", "anchors": ["src/automata/tree_stack_automaton/from_pmcfg.rs", "src/automata/tree_stack_automaton/mod.rs", "src/recognisable/automaton.rs"]}
{"id": "C69", "title": "The command mcfg parse --negra prints the n best derivations of each line", "statement": "For a grammar file and the text of the standard input, mcfg parse --negra answers the lines one after the other, each answer followed by an empty line. The answer to the i-th line consists of the n best derivations of the words of the line (ordered by their weights, none of them twice, fewer than n only if there are no others) in the export format with the number i. With --beam, the answer consists of at most n derivations. The command does not panic for lines with words.", "quantifier": "all grammar files, all inputs, all numbers of parses, all numbers of steps of the search, all heaps", "why_tests_cant": "The claim is about all grammars and all texts, and about the order of all derivations.", "anchors": ["src/bin/pmcfg.rs", "src/automata/tree_stack_automaton/from_pmcfg.rs", "src/grammars/pmcfg/negra.rs", "src/recognisable/automaton.rs"]}
{"id": "C70", "title": "Best-first recognition finds each parse after finitely many steps, unless better runs grow without end", "statement": "With weights of at most one and a heap as agenda, recognise returns all accepting runs of weight at least v after finitely many steps if the runs of weight at least v have bounded lengths, in particular if long products of weights fall below v. Conversely, a run is returned within m steps only if all better runs, accepting or not, are shorter than m. For the automaton of a PMCFG it suffices that the weights of the rules fade, although most transitions have weight one; so mcfg parse finishes for each sentence with at least n derivations if the weights of the rules are below one.", "quantifier": "all automata, all words, all heaps, all numbers of steps", "why_tests_cant": "It is a claim about all executions that go on for an unbounded number of steps; a test can only observe that an answer has not come yet.", "anchors": ["src/recognisable/automaton.rs", "search/src/search.rs", "src/automata/tree_stack_automaton/from_pmcfg.rs", "src/bin/pmcfg.rs"]}
{"id": "C71", "title": "When recognition and mcfg parse end", "statement": "For each Lossless agenda, recognise ends for a word whose symbols occur in transitions if and only if the lengths of the runs on the word are bounded. For the automaton of a PMCFG whose rules have no empty first components, recognition of each word ends if the grammar is not left recursive (no rule is reached from itself at left corners), and it never ends if there are paths of left corners of each length. So mcfg parse finishes for grammars without left recursion and prints the n best derivations of each line (total correctness).", "quantifier": "all automata, all grammars, all words, all agendas, all numbers of parses", "why_tests_cant": "It is a claim about termination for all words, and about executions that never end.", "anchors": ["src/recognisable/automaton.rs", "search/src/search.rs", "src/automata/tree_stack_automaton/from_pmcfg.rs", "src/bin/pmcfg.rs"]}
{"id": "C72", "title": "When parsing with context-free grammars ends", "statement": "For the push-down automaton of each context-free grammar and each Lossless agenda: recognition of a word whose symbols occur in the grammar ends if and only if no left recursive nonterminal (also hidden left recursion through symbols that derive the empty word) can become the leftmost nonterminal to the right of a prefix of the word. It ends for all words if and only if no left recursive nonterminal can become the leftmost one of a sentential form. With left recursion, if long products of rule weights fall below v, the parses of all leftmost derivations of weight at least v are returned after finitely many steps, each once and with its weight, where the weights of rules that occur several times are added.", "quantifier": "all context-free grammars, all words, all agendas with the laws", "why_tests_cant": "It is a claim about termination for all words, and about executions that never end.", "anchors": ["src/automata/push_down_automaton/from_cfg.rs", "src/automata/push_down_automaton/mod.rs", "src/recognisable/automaton.rs", "search/src/search.rs"]}
{"id": "C73", "title": "The command cfg parse", "statement": "For each grammar file and each input, cfg parse -n n answers the lines one after the other, each answer followed by an empty line. The answer to a line consists of one line per derivation, with the final configuration (everything read, only the bottom symbol on the store, the weight of the derivation). Without a beam these are the n best leftmost derivations, best first, each derivation once; with a beam at most n derivations. Rules that occur several times count as one rule with the sum of the weights. The command finishes if no left recursive nonterminal is exposed by the lines; with left recursion it finishes for n parses if there are n derivations whose weights are not reached by long products of rule weights. It panics if and only if the file is not a grammar.", "quantifier": "all grammar files, all inputs, all numbers of parses, all agendas with the laws, each text of configurations", "why_tests_cant": "It quantifies over all grammars and inputs, and compares with all derivations, which can be infinitely many.", "anchors": ["src/bin/cfg.rs", "src/automata/push_down_automaton/from_cfg.rs", "src/recognisable/automaton.rs", "src/grammars/cfg/from_str.rs"]}
{"id": "C74", "title": "Relabelling the automaton of a context-free grammar, and the command approximation relabel parse", "statement": "For each context-free grammar and each function on nonterminals, RlbElement::approximate_automaton applied to the grammar's push-down automaton gives the automaton of the relabelled grammar: the same transitions with the same weights and the same initial store, where the weights of rules that become equal are added. It therefore accepts exactly the words of the relabelled grammar, among them all words of the grammar, and recognition ends exactly if no left recursive nonterminal of the relabelled grammar is exposed. The command approximation relabel parse answers each line by the best parse of the relabelled grammar, or None if and only if the relabelled grammar does not generate it, followed by the line; it panics if and only if one of the files cannot be read.", "quantifier": "all grammars, all functions (all class files), all words and inputs, all agendas with the laws, each text of parses", "why_tests_cant": "It quantifies over all grammars, functions and words, and compares with all derivations, which can be infinitely many.", "anchors": ["src/approximation/relabel.rs", "src/approximation/mod.rs", "src/automata/push_down_automaton/from_cfg.rs", "src/automata/push_down_automaton/mod.rs", "src/bin/approximation.rs"]}
{"id": "C75", "title": "The push-down approximation of the automaton of a PMCFG, and the command approximation tts parse", "statement": "For each PMCFG that has a tree-stack automaton, TTSElement::approximate_automaton does not panic and gives a push-down automaton that accepts exactly the empty word and the words of the context-free grammar of the components, which has the nonterminals (A, j) and one rule for each component of each rule; of several terminals at the end of a component only the last is kept (as in C28, violating the claim that each word of the PMCFG is accepted). Without such components the automaton accepts each word of the PMCFG, and its first parse is at least as good as each derivation. Recognition does not panic and ends exactly if no left recursive nonterminal of the context-free grammar of the components is exposed. The command approximation tts parse answers each line by a best run, or None if and only if the line is not blank and not generated by the grammar of the components, followed by the line; it panics if and only if the file cannot be read or the automaton of the grammar cannot be built.", "quantifier": "all PMCFGs, all words and inputs, all agendas with the laws, each text of parses", "why_tests_cant": "It quantifies over all grammars and words, and compares with all derivations and runs, which can be infinitely many.", "anchors": ["src/approximation/tts.rs", "src/approximation/mod.rs", "src/automata/tree_stack_automaton/from_pmcfg.rs", "src/automata/push_down_automaton/mod.rs", "src/bin/approximation.rs"]}
{"id": "C76", "title": "The command tsa recognise", "statement": "tsa recognise panics if and only if the file does not declare a tree-stack automaton (with an initial symbol). Otherwise each line of the input is answered by the line's words, at most n accepting runs of the declared automaton for these words, each in a line, and an empty line, whatever beam is used; no run is printed twice if no transition is declared twice. Without a beam, and if multiplication with the declared weights does not increase weights, these are the n best accepting runs, best first: each other accepting run is not better than any of them, and if there are less than n, there are no other ones. The answer does not depend on the number of steps. The command finishes if the lengths of the runs on each line are bounded, e.g. if each transition reads something, or if there are n accepting runs above whose weights there are no arbitrarily long runs.", "quantifier": "all automaton files, all inputs, all n, all agendas with the laws, each text of sentences and runs", "why_tests_cant": "It quantifies over all automata and inputs, and compares the printed runs with all other runs, of which there can be infinitely many.", "anchors": ["src/bin/tree_stack_automata.rs", "src/automata/tree_stack_automaton/from_str.rs", "src/automata/tree_stack_automaton/mod.rs", "src/recognisable/automaton.rs"]}
{"id": "C77", "title": "What the tree-stack automaton of an arbitrary PMCFG does", "statement": "For every PMCFG for which the conversion does not panic, the automaton accepts the empty word, and otherwise exactly the words that are obtained by visiting components of the grammar's nonterminals one after the other: starting with the first component of an initial nonterminal, each variable visits the component it refers to, the rule of a nonterminal is chosen at its first visit, each visit checks that the component that was visited before is the one that precedes in the rule, and of the terminals after the last variable of a component only those remain that the conversion keeps. recognise returns exactly the weights of such visits, and to_abstract_syntax_tree does not panic for any returned parse and gives the rules that were chosen. If no rule deletes, visits are derivations of the grammar without the lost terminals, even if rules copy or swap components; if the grammar is ordered, derivations are visits.", "quantifier": "all PMCFGs (deleting, copying, unordered, with trailing terminals, with several components for initial nonterminals), all words, all lossless agendas", "why_tests_cant": "It characterises the language, the weights and the trees for all grammars and words.", "anchors": ["src/automata/tree_stack_automaton/from_pmcfg.rs", "src/automata/tree_stack_automaton/mod.rs"]}
{"id": "C78", "title": "Recognition with the automaton of an arbitrary PMCFG: each choice of rules once, and when it ends", "statement": "For every PMCFG whose rules differ in more than their weights, recognise with the tree-stack automaton of the grammar returns no abstract syntax tree and no run twice, and after it has ended, the returned parses with non-empty runs correspond one to one to the ways to accept the word by visiting components (C77), with the same weights. Recognition ends if and only if the depths of the reachable tree stacks are bounded. It ends for every word if no component is reached from itself by first visits at the left and components that are visited first are not empty; it never ends if there are arbitrarily long sequences of first visits at the left. If the weights of the rules fade below v, each way to accept the word with weight at least v is found after finitely many steps.", "quantifier": "all PMCFGs (deleting, copying, unordered, with trailing terminals), all words, all agendas of the respective kind", "why_tests_cant": "It speaks about all grammars and about the termination of the search.", "anchors": ["src/automata/tree_stack_automaton/from_pmcfg.rs", "src/recognisable/mod.rs", "src/automata/tree_stack_automaton/mod.rs"]}
{"id": "C79", "title": "The text of a tree stack, and the command mcfg parse without --negra", "statement": "Display of a tree stack draws the tree of to_tree: two lines for each node, in the lexicographic order of the addresses, and the pointer is marked; the text determines the tree and the pointer if the texts of the symbols are different and have no line breaks. mcfg parse without --negra panics if and only if the file is not a grammar that has an automaton. For each line it prints at most n configurations, each with the weight and the drawing of a way to accept the line by visiting components (C77), none of them twice if the rules differ in more than their weights. Without a beam, these are the n best ones if weights do not grow. The command finishes for each input if no component is reached from itself by first visits at the left and components that are visited first are not empty.", "quantifier": "all tree stacks; all files, all inputs, all agendas of the respective kind, all numbers of parses", "why_tests_cant": "It speaks about all grammars, sentences and texts, and about termination.", "anchors": ["src/automata/tree_stack_automaton/tree_stack.rs:146", "src/automata/tree_stack_automaton/from_pmcfg.rs:40", "src/recognisable/configuration.rs:69", "src/bin/pmcfg.rs:64"]}
{"id": "C80", "title": "The commands that print automata", "statement": "cfg automaton panics if and only if the file is not a grammar; otherwise it prints, in any order, one line for each rule with the sum of its weights, one for each terminal that occurs in a rule, and one for each initial nonterminal. approximation relabel automaton prints the same for the relabelled grammar. mcfg automaton prints one line for each transition of the tree-stack automaton (C77). approximation tts automaton prints each transition of the approximated automaton once, with the sum of the weights of the transitions that become equal; its language is the one of C75. The output of mcfg automaton cannot be read by tsa recognise if there is a rule for an initial nonterminal whose name contains no closing parenthesis and no line break. The output of cfg automaton does not determine the language of the automaton, as nonterminals and terminals are printed alike.", "quantifier": "all files, all names, all weights", "why_tests_cant": "It speaks about all grammars, and about the absence of any way to read the output.", "anchors": ["src/automata/push_down_automaton/mod.rs:409", "src/automata/push_down_automaton/from_cfg.rs:41", "src/bin/cfg.rs:93", "src/bin/pmcfg.rs:111", "src/bin/approximation.rs:145", "src/bin/approximation.rs:195"]}
{"id": "C81", "title": "The parser for grammars with cycles", "statement": "Grammars may have cycles of components that consist of one variable (for example S -> S), which give infinitely many derivations. If each such cycle lowers the weights (for probabilities: no cycle has the probability one), if weights are at most one and not zero, and if each nonterminal with a terminal rule has only rules for this terminal, then for sentences of at most 255 words and without pruning: for each m, the first m calls of the iterator over bracket words end, their derivations are correct and different, in the order of their weights, and no other derivation has a greater weight than one of them; more calls continue the sequence; and each derivation is returned after finitely many calls (if the repetitions of cycles tend to zero). With pruning, the results are correct, different and in order. For a cycle of weight one, the parser may not return a first derivation although there are derivations.", "quantifier": "all grammars in normal form, all sentences of at most 255 words, all numbers of calls, all numbers of repetitions of cycles", "why_tests_cant": "There are infinitely many derivations, and the fairness of the enumeration speaks about all of them.", "anchors": ["src/grammars/lcfrs/csparsing/automaton/kbest/mod.rs:141", "src/grammars/lcfrs/csparsing/automaton/kbest/mod.rs:223", "src/grammars/lcfrs/csparsing/mod.rs:96"]}
{"id": "C82", "title": "Sentences of 256 and more words", "statement": "As positions are cast to u8, the parser fails for sentences of at least 256 words: for all grammars and all options it returns no derivation and no fallback (it panics, or there is no result, even if there are derivations); if the sentence has a derivation with rules whose weights are at most one and not zero, it panics. The command csparsing parse panics if one of its lines is such a sentence; if it prints something for a line of at least 256 words, then it is the message that there is no parse.", "quantifier": "all grammars, all sentences of at least 256 words, all options, all numbers of calls", "why_tests_cant": "It speaks about all grammars and all long sentences, for all options.", "anchors": ["src/grammars/lcfrs/csparsing/automaton/mod.rs:275", "src/grammars/lcfrs/csparsing/automaton/chart.rs:23", "src/grammars/lcfrs/csparsing/automaton/kbest/mod.rs:285", "src/bin/csparsing.rs:247"]}
{"id": "C83", "title": "The Chomsky-Sch\u00fctzenberger parser for grammars with arbitrary terminal rules", "statement": "For all grammars in normal form without cycles of components that consist of one variable (nonterminals may have rules for several terminals, and terminal and other rules): without pruning, the parser returns all derivations of the sentence, each at least once, and otherwise only derivations of sentences with the same number of words; then it ends. With pruning, it returns only such derivations and ends. The derivations need not be different, and they need not be in the order of their weights (both refuted by a grammar).", "quantifier": "all grammars in normal form, all sentences of at most 255 words, all weights at most one, all options, all numbers of calls", "why_tests_cant": "It speaks about all grammars and sentences, and about termination; the repetitions only occur for grammars with several rules for preterminals and different weights.", "anchors": ["src/grammars/lcfrs/csparsing/automaton/kbest/mod.rs:60", "src/grammars/lcfrs/csparsing/automaton/kbest/backtrace.rs:1", "src/grammars/lcfrs/csparsing/mod.rs:108"]}
{"id": "C84", "title": "The command csparsing parse for grammars with arbitrary terminal rules", "statement": "For all grammars in normal form without cycles of components that consist of one variable, and for all options and inputs whose lines have the right form and at most 255 words (and, for lines of one word, if there is no terminal rule for the initial nonterminal): the command does not panic and terminates; for each line it prints trees that are derivations of sentences with the same number of words (with tags: with the words of the line), a fallback with merged rules, or the text for sentences without a parse; without pruning, all derivations of the line are among the results. The words that are printed need not be the words of the line (refuted by a grammar whose preterminals have rules for several words).", "quantifier": "all grammars in normal form, all input texts, all options, all weights at most one", "why_tests_cant": "It speaks about all grammars, options and inputs, and about the absence of panics.", "anchors": ["src/bin/csparsing.rs:247", "src/grammars/lcfrs/csparsing/mod.rs:96", "src/grammars/pmcfg/negra.rs:100"]}
{"id": "C85", "title": "On which texts the readers of grammars and automata panic", "statement": "Reading a PMCFG rule panics if and only if the text can be read up to a variable with a number of at least 2^64, or up to a malformed weight; reading a PMCFG or an LCFRS panics iff all lines before some rule can be read and reading this rule panics. Reading a transition panics iff the text can be read up to a malformed weight, or its instruction is malformed and everything else can be read; reading a finite state automaton or a tree stack automaton panics iff all lines before some transition can be read and reading this transition panics. In all other cases the result is a value or an error. Reading an instruction of a tree stack automaton panics iff the text consists of white space.", "quantifier": "all texts, all symbol and weight types", "why_tests_cant": "It speaks about all texts and is an equivalence.", "anchors": ["src/grammars/pmcfg/from_str.rs:54", "src/grammars/lcfrs/from_str.rs:19", "src/util/parsing.rs:37", "src/recognisable/from_str.rs:29", "src/automata/tree_stack_automaton/from_str.rs:53", "src/automata/finite_state_automaton/from_str.rs:66"]}
{"id": "C86", "title": "From grammar files to printed parse trees", "statement": "csparsing extract, followed by csparsing parse with its output: for a file of disco-dop rules in the format, whose nonterminals have consistent numbers of components, with positive counts, a rule for ROOT and without cycles of one-variable components, extract does not panic (for --sxlen of at most 255), the extracted grammar is the one that the file describes (one rule per line, with relative frequencies as weights, and one lexical rule for each nonterminal without rules), and parse prints for each line with at most 255 words the derivations of the sentence, ordered by probability, each once (without pruning all, else some), or the fallback or NOPARSE. With a lexicon file or for the text of an LCFRS the same holds for trees of sentences with the same number of words. Extract panics for grammars that are not in normal form, for unreadable texts, and for --sxlen above 255.", "quantifier": "all grammar files, lexicon files, inputs, hash orders, options, and codecs of symbols and numbers", "why_tests_cant": "It composes reading, normalisation, construction of the parser and parsing for all grammars and inputs.", "anchors": ["src/bin/csparsing.rs:160", "src/grammars/lcfrs/from_discodop.rs", "src/grammars/lcfrs/csparsing/mod.rs:203"]}
{"id": "C87", "title": "The search for derivations of csparsing parse ends", "statement": "For a grammar in normal form whose weights are at most one and whose cycles of one-variable components lower the weights, the command csparsing parse ends for each sentence of at most 255 words: the iterator of with_fallback returns the demanded number k of derivations or None after finitely many calls of the iterator over bracket words. This holds with a limit of the number of candidates, for grammars without cycles, and if the sentence has at least k derivations; then the printed trees are the k best ones (all, if there are fewer and there is no limit). It does not hold in general: with a cycle such as X -> X B with components (x0, x1 y), a sentence without derivations may have infinitely many bracket words, none of which is a derivation, so that the command with its default options does not end.", "quantifier": "all grammars, sentences, options and numbers of demanded derivations", "why_tests_cant": "Non-termination cannot be observed in finite time, and termination for all sentences cannot be tested.", "anchors": ["src/bin/csparsing.rs:247", "src/grammars/lcfrs/csparsing/mod.rs:96", "src/grammars/lcfrs/csparsing/automaton/kbest/backtrace.rs"]}
{"id": "C88", "title": "Relative frequencies make extracted grammars safe for cycles", "statement": "For the rules of a disco-dop grammar file with positive counts, csparsing extract assigns relative frequencies. If all left-hand sides are productive, then no cycle of one-variable components has the weight one, so each cycle lowers the weights and its repetitions vanish. Hence extract followed by parse answers each sentence of at most 255 words for which the number of candidates is limited, or (without pruning and limit) which has the demanded number of derivations: it prints derivations of the sentence in the order of their probabilities, the best ones if nothing is pruned. Productivity is needed: there are unproductive rules with a cycle of weight one.", "quantifier": "all grammar files, sentences, options and numbers of demanded derivations", "why_tests_cant": "Quantifies over all grammar files with cycles; a test shows single grammars, and cycles give infinitely many derivations.", "anchors": ["src/bin/csparsing.rs:162", "src/grammars/lcfrs/from_discodop.rs:182", "src/grammars/lcfrs/csparsing/mod.rs:96"]}
{"id": "C89", "title": "Recognition with rounded weights", "statement": "The theorems on recognition (C16 to C20, C23, C29 to C32, C51, C70, C71, C76) do not need that products of weights are associative, so that they cover the rounded products of LogDomain<f64>. Rounded sums of logarithms are monotone, and a factor of at most one does not increase a weight in spite of rounding. So if all weights are at most one, then finite state automata, push-down automata and tree stack automata return their parses in the order of the rounded weights, and the first parse has the best rounded weight. If sums of logarithms are rounded with a relative error of at most e, then the weight computed for a run of at most n transitions lies between the powers (1+e)^n and (1-e)^n of its exact weight, and the exact weight p of the first parse and the exact weight q of any other parse satisfy q^((1+e)^n) <= p^((1-e)^n). Rounded products are not associative, and products of weights below one need not fade, so the condition of C70 can fail because of rounding.", "quantifier": "all monotone and idempotent roundings, automata with weights of at most one, words, agendas and numbers of steps", "why_tests_cant": "Quantifies over all roundings and automata; the error bound concerns runs of all lengths.", "anchors": ["src/recognisable/automaton.rs:115", "src/recognisable/int_automaton.rs:41", "src/recognisable/configuration.rs: Ord"]}
{"id": "C90", "title": "Recognition in several steps from coarse to fine", "statement": "coarse_to_fine_recogniser!(automaton; s1, ..., sk) with any number of strategies: every parse that recognise returns is an accepting run of the fine automaton on the word, and the parses come by non-increasing weights. The recogniser finds a parse of each word that the automaton accepts. If all strategies together keep the transitions different and the coarsest automaton has at most one parse, recognise returns exactly the accepting runs of the fine automaton.", "quantifier": "all automata, strategies that preserve steps and acceptance, numbers of levels, words, heaps and orders of equal elements", "why_tests_cant": "Quantifies over towers of any height; the test in the repository uses two strategies and one grammar.", "anchors": ["src/recognisable/coarse_to_fine.rs:119", "src/recognisable/coarse_to_fine.rs:147", "src/approximation/mod.rs:114"]}
{"id": "C91", "title": "The Chomsky-Sch\u00fctzenberger parser for grammars with cycles and arbitrary terminal rules", "statement": "For every grammar in normal form in which each cycle of components that consist of one variable lowers the weights, and without any condition on the terminal rules: each call of the iterator of CSRepresentation::generate ends, and each derivation that parse returns is a derivation of a sentence with the same number of words. If the repetitions of cycles vanish, then parse without pruning returns each derivation of the sentence after finitely many calls, although there may be infinitely many.", "quantifier": "all grammars, weights, sentences of 1 to 255 words, beams, deltas, and numbers of calls", "why_tests_cant": "Quantifies over infinite sequences of results and all grammars; the tests of the repository use grammars without cycles in which each nonterminal has one terminal.", "anchors": ["src/grammars/lcfrs/csparsing/automaton/kbest/mod.rs:139", "src/grammars/lcfrs/csparsing/automaton/kbest/mod.rs:222", "src/grammars/lcfrs/csparsing/automaton/kbest/mod.rs:283", "src/grammars/lcfrs/csparsing/mod.rs:96"]}
{"id": "C92", "title": "From grammar files to printed parse trees for grammars with cycles and arbitrary terminal rules", "statement": "For every grammar in normal form in which each cycle of components that consist of one variable lowers the weights, and without any condition on the terminal rules: if the search for the demanded number of derivations ends for each line (which holds if the number of candidates is limited, if there are no cycles, or, without pruning and if the repetitions of cycles vanish, if the sentence has that many derivations), then csparsing parse prints, line by line, trees of derivations of sentences with the same number of words, or a fallback tree, or a flat tree; without pruning and limit, each derivation of the sentence is among the trees if there are fewer than demanded. The conditions on the cycles hold for grammars that csparsing extract reads from rules and a lexicon of disco-dop, if all left-hand sides are productive.", "quantifier": "all grammars, grammar files, lexicons, options and texts with lines of at most 255 words (for lines of one word: without terminal rules for the initial nonterminal)", "why_tests_cant": "Quantifies over all grammar files, texts and options, and over enumerations that may be infinite; the tests of the repository do not run the commands.", "anchors": ["src/bin/csparsing.rs:247", "src/grammars/lcfrs/csparsing/mod.rs:96", "src/grammars/pmcfg/negra.rs:100", "src/bin/csparsing.rs:162", "src/grammars/lcfrs/from_discodop.rs:182"]}
{"id": "C93", "title": "Cow derivations: is_consistent and to_mcfg_deriv agree with toderiv", "statement": "is_consistent of a cow derivation terminates and returns true iff all nodes at one position have the same rule. to_mcfg_deriv returns Some iff, in addition, all rules exist and each nonterminal to the left of one with a node has a node; the result has at each position the rule of the nodes there. It returns None only if two nodes at one position have different rules, and it does so if there are no gaps and no unknown rules above. For bracket words of components, is_consistent returns false iff toderiv returns None; for the words of derivations of the context-free approximation of an LCFRS, to_mcfg_deriv returns the same as toderiv.", "quantifier": "all cow derivations and lists of rules; all LCFRS and bracket words of derivations of the context-free approximation", "why_tests_cant": "Quantifies over all trees and all grammars; tests compare single examples, and the violation needs a nonterminal of fan-out 0.", "anchors": ["src/grammars/lcfrs/csparsing/cowderiv.rs: is_consistent", "src/grammars/lcfrs/csparsing/cowderiv.rs: to_mcfg_deriv", "src/grammars/lcfrs/csparsing/mod.rs: toderiv"]}
{"id": "C94", "title": "Importers: the exact results of reading arbitrary texts", "statement": "For every text, FromStr of DiscoDopGrammar returns the rules of the longest list of lines at its beginning that can be read (tokens, yield functions, counts and names as in the format; what follows in a token or after the last line is ignored) and panics iff a line that is reached has a one from position 64 on in a component. FromStr of DiscoLexer returns the entries of the longest list of lines, an error iff a word or tag that is reached cannot be read, and never panics. FromStr of RparseClauses returns the clauses of the longest nonempty list of lines, an error iff the text does not start with a clause, and panics iff a line that is reached is a clause with a weight or symbol that cannot be read.", "quantifier": "all texts, all readers of symbols and weights", "why_tests_cant": "Quantifies over all texts, including those that are not in the format; tests only use files in the format.", "anchors": ["src/grammars/lcfrs/from_discodop.rs: parse_discodop_constituents", "src/grammars/lcfrs/from_discodop.rs: parse_discodop_lexer", "src/grammars/lcfrs/from_discodop.rs: parse_yield", "src/grammars/lcfrs/from_discodop.rs: parse_pseudocount", "src/grammars/lcfrs/from_rparse.rs: parse_rparse_clauses"]}
{"id": "C95", "title": "Partitions and multiple Dyck languages after serialisation", "statement": "Deserialising what was serialised for a Partition built by Partition::new gives this Partition. Deserialising an arbitrary sequence of cells gives a partition with these cells as sets, and panics iff two cells have a common symbol. A MultipleDyckLanguage (also a sorted one) that was serialised and deserialised recognises the same words: recognize ends without panic and says whether the word is in the language, for each order in which the heaps store their elements.", "quantifier": "all partitions, all sequences of cells, all words, all orders of the heaps, all lossless agendas", "why_tests_cant": "Quantifies over all values that are written and all sequences that are read, and over the unspecified order of the elements of a heap; the test suite has no test of it.", "anchors": ["src/util/partition.rs: Partition::serialize", "src/util/partition.rs: Partition::deserialize", "src/dyck/multiple/automaton/mod.rs: MultipleDyckAutomaton::serialize", "src/dyck/multiple/automaton/mod.rs: MultipleDyckAutomaton::deserialize"]}
{"id": "C96", "title": "The context-free grammar of an arbitrary PMCFG", "statement": "For each PMCFG g for which CFG::from(g) does not panic: the CFG has a leftmost derivation of a word with a weight iff the PMCFG in which each occurrence of a variable has its own nonterminal generates the word with this weight. Each word of g is a word of the CFG. If no rule of g uses a variable twice and all nonterminals of right-hand sides are productive, then the CFG has exactly the words of g, also if rules drop nonterminals.", "quantifier": "all PMCFGs that are converted, all words, all commutative monoids of weights", "why_tests_cant": "Quantifies over all grammars including copying and deleting ones, and over infinitely many words and derivations.", "anchors": ["src/grammars/cfg/from_pmcfg.rs: CFG::from"]}
{"id": "C97", "title": "Renaming the nonterminals of a PMCFG", "statement": "Let g be a PMCFG and f a function on its nonterminals, and let g' be g with all initial nonterminals and rules renamed with f (map_nonterminals). Each derivation of g with renamed rules is a derivation of g' of the same word with the same weight, so that g' generates the words of g; if f is injective, then g' generates exactly the words of g with the same weights. Each transition of the tree stack automaton of g, renamed with TreeStackInstruction::map and PosState::map, is a transition of the automaton of g', and renaming an accepting run for g gives an accepting run for g' with the same word and weight and the renamed tree stack. The construction of the automaton for g' panics only if f merges nonterminals with too different numbers of components.", "quantifier": "all PMCFGs, all functions on nonterminals, all derivations and runs", "why_tests_cant": "Quantifies over all grammars, renamings and runs.", "anchors": ["src/grammars/pmcfg/mod.rs: PMCFGRule::map_nonterminals", "src/automata/tree_stack_automaton/from_pmcfg.rs: PosState::map, TreeStackAutomaton::from", "src/automata/tree_stack_automaton/tree_stack_instruction.rs: TreeStackInstruction::map"]}
{"id": "C98", "title": "Recognition with a beam, in the library and in the commands", "statement": "With a beam (recognise_beam_search, and the option --beam of the commands), parses are still returned in non-increasing weight if no transition increases a weight, and recognition ends whenever the lengths of the runs are bounded. A beam of size zero finds nothing and ends at once. If recognition without a beam ends, all beams that are large enough give the same results. For each sentence, cfg parse, mcfg parse and tsa recognise with a beam print at most n derivations or runs of the sentence, none twice, the better ones first; cfg parse finishes under the same condition as without a beam; for each number of steps and all texts, the commands behave with a large enough beam as without one. It is NOT true that a parse found with a beam is found with each larger beam: a larger beam may keep dead ends that displace the parse.", "quantifier": "all automata, grammars, words, beams, min-max heaps and numbers of steps", "why_tests_cant": "Quantifies over all automata, beams and executions; the failure of monotonicity in the beam needs a particular shape of automaton.", "anchors": ["src/recognisable/automaton.rs: recognise_beam_search", "search/src/agenda/limited_heap.rs: LimitedHeap", "src/bin/cfg.rs: parse --beam", "src/bin/pmcfg.rs: parse --beam", "src/bin/tree_stack_automata.rs: recognise --beam"]}
{"id": "C99", "title": "Exact result of the search without repetitions and of the conversion of MCFGs", "statement": "Search::bfs(..).uniques() returns exactly the items in the order of their discovery, up to the first item that was discovered a second time; this determines the result. For every agenda that loses nothing, an item is reachable iff it was returned or is reachable from what is left on the agenda. Hence Lcfrs::from(Mcfg), for a well-formed non-deleting MCFG whose nonterminals all have rules, returns exactly the rules (unchanged, with empty deletion sets, ordered by the visits) for the nonterminals visited breadth-first before the first repetition. It is NOT true that the rules for all reachable nonterminals are kept.", "quantifier": "all successor functions, initial items, agendas, MCFGs and numbers of steps", "why_tests_cant": "Gives the whole result as a function of an arbitrary graph or grammar; tests only compare single results.", "anchors": ["search/src/search.rs: uniques, unique::Search::next", "search/src/search.rs: Search::bfs", "src/grammars/lcfrs/conversion.rs: impl From<Mcfg> for Lcfrs"]}
{"id": "C100", "title": "Printed bracket words can be read back", "statement": "Display of Bracket gives different texts to different brackets iff annotations have different texts. The concatenation of the printed brackets of a word determines the word if the texts of annotations differ and contain neither of the two bracket characters. In particular the indices (BracketContent) of a Chomsky-Schützenberger representation have different texts, and each word over its brackets can be read off its printed form. It is NOT true for arbitrary annotations with different texts.", "quantifier": "all annotations, texts, rule numbers, and words of brackets", "why_tests_cant": "Unambiguity quantifies over all pairs of words.", "anchors": ["src/dyck/mod.rs: Display for Bracket", "src/grammars/lcfrs/csparsing/mod.rs: Display for BracketContent"]}
{"id": "C101", "title": "The parses are derivations also with rounded weights", "statement": "LogDomain<f64> multiplies by adding logarithms with rounding, so multiplication is not associative. Whatever the weights, the multiplication, their order, the candidate and beam limits: each tree that csparsing returns (parse, fallback, debug) is a derivation (for fallback: a fallback tree) of some sentence of the grammar with as many words as the input. If moreover multiplication is commutative and each nonterminal with a rule for a terminal has rules for this terminal only, it is a derivation of the input sentence. For nonterminals with rules for several terminals it is NOT always a derivation of the input.", "quantifier": "all weights with no laws, grammars in normal form, sentences of at most 255 words, hash orders, options, numbers of steps and of candidates", "why_tests_cant": "Quantifies over all ways to round, all grammars and sentences; rounding errors that matter are rare.", "anchors": ["src/grammars/lcfrs/csparsing/mod.rs: CSRepresentation::new, generate, debug, fallback", "src/grammars/lcfrs/csparsing/automaton/mod.rs", "src/grammars/lcfrs/csparsing/automaton/chart.rs", "src/grammars/lcfrs/csparsing/automaton/kbest/mod.rs"]}
{"id": "C102", "title": "Each parse is returned once also with rounded weights", "statement": "For a grammar without equal rules, in normal form, whose nonterminals with terminal rules have rules for one terminal only, without cycles of single variables, and with weights between zero and one, the sequence of trees that csparsing returns without pruning contains no tree twice. It is true if multiplication is associative. It is NOT true for logarithms that are rounded (LogDomain<f64>): the weight of the first candidate of a rule is computed as w*(l*r), those of later candidates as (w*l)*r, so that a later candidate of a cell may have a greater weight than the first; then a pair of indices may be removed from the heap before its second predecessor and is inserted again.", "quantifier": "all grammars as described, sentences of 1 to 255 words, hash orders, ways to round", "why_tests_cant": "Requires ties between derivations whose sums of logarithms are rounded differently; absence of duplicates for exact weights quantifies over all grammars.", "anchors": ["src/grammars/lcfrs/csparsing/automaton/kbest/mod.rs: backtraces, weight, kth", "src/grammars/lcfrs/csparsing/automaton/kbest/backtrace.rs", "src/grammars/lcfrs/csparsing/mod.rs: CSRepresentation::generate"]}
{"id": "C103", "title": "No derivation is lost with rounded weights", "statement": "For weights whose multiplication is rounded (commutative and monotone, not associative, without underflow to zero), for a grammar in normal form, whose nonterminals with terminal rules have rules for one terminal only, without cycles of single variables, and whose factors of weights are greater than zero and at most one, csparsing without pruning ends, and the trees that it returns are exactly the derivations of the sentence (some perhaps repeatedly, C102).", "quantifier": "all grammars as described, sentences of 1 to 255 words, hash orders, ways to round", "why_tests_cant": "The enumeration of candidates compares weights that are computed in different orders; that no derivation is skipped for any rounding quantifies over all grammars, sentences and roundings.", "anchors": ["src/grammars/lcfrs/csparsing/automaton/mod.rs: fill_chart", "src/grammars/lcfrs/csparsing/automaton/kbest/mod.rs: backtraces, weight, kth", "src/grammars/lcfrs/csparsing/mod.rs: CSRepresentation::generate"]}
{"id": "C104", "title": "Order of the parses with rounded weights", "statement": "Let the weights be logarithms that are rounded with a relative error of at most e per product (LogDomain<f64>), the grammar in normal form, its nonterminals with terminal rules having rules for one terminal only, without cycles of single variables, and the factors of its weights greater than zero and at most one. If csparsing (with or without pruning) returns a derivation before another one, then its cost (the sum of the exact negative logarithms of the weights of its rules) is at most the cost of the other one times (1/(1-e))^(4*((words+1)*(states+1))^2), times g^2 if the costs of the factors of a weight sum up to its cost up to a factor g. In particular, the parses are in descending order of weights if nothing is rounded. They are not exactly in this order if weights are rounded.", "quantifier": "all grammars as described, sentences of 1 to 255 words, hash orders, ways to round, beams and thresholds, all pairs of results", "why_tests_cant": "The bound holds for all ways to round, all grammars and all pairs of results; tests only see roundings that happen to occur.", "anchors": ["src/grammars/lcfrs/csparsing/automaton/mod.rs: fill_chart", "src/grammars/lcfrs/csparsing/automaton/kbest/mod.rs: backtraces, weight, kth", "src/grammars/lcfrs/csparsing/automaton/kbest/backtrace.rs", "src/grammars/lcfrs/csparsing/mod.rs: CSRepresentation::generate"]}
{"id": "C105", "title": "The first parses are nearly the best with rounded weights", "statement": "Let the weights be logarithms that are rounded with a relative error of at most e per product (LogDomain<f64>), and the grammar as for C104. If csparsing without pruning returns a derivation, then its cost is at most the factor of C104 times the cost of each derivation of the sentence that was not returned before; in particular, the first result is nearly the best derivation. If nothing is rounded, then the factor is one; otherwise the first result is not always the best derivation. For LogDomain<f64>, the factors of a weight are n copies of the logarithm times 1.0 / n; if these quotients and products are rounded with a relative error of at most f, and the weights are greater than zero and at most one, then so are the factors, their costs sum up to the cost of the weight up to the factor (1/(1-f))^2, the construction of the parser does not panic, and C104 and this property hold with the additional factor (1/(1-f))^4.", "quantifier": "all grammars as described, sentences of 1 to 255 words, hash orders, ways to round, all results and all derivations of the sentence", "why_tests_cant": "The bound compares each result to all derivations of the sentence, for all grammars and all ways to round.", "anchors": ["src/util/factorizable.rs: impl Factorizable for LogDomain<f64>", "src/grammars/lcfrs/csparsing/mod.rs: CSRepresentation::new, generate", "src/grammars/lcfrs/csparsing/automaton/mod.rs: fill_chart", "src/grammars/lcfrs/csparsing/automaton/kbest/mod.rs: kth"]}
{"id": "C106", "title": "csparsing parse with rounded weights", "statement": "Let the weights be rounded logarithms and their factors be computed as by the tool (C105), the grammar as for C105, and each line of the input of the right form with at most 255 words (for lines of one word: without terminal rules for the initial nonterminal). Then `csparsing parse` does not panic, whatever beam, threshold, limit of candidates, -k, fallback and debug mode are chosen, and prints for each line, in their order, the first k trees of a list of derivations of the sentence, or the fallback, or that there is no parse. The list is in the order of the weights up to the factor of C105. Without pruning, no derivation that is not in the list yet is better than the next tree by more than this factor, without a limit of candidates all derivations of the sentence are in the list, and the fallback exists if the sentence has a derivation.", "quantifier": "all grammars as described, texts, options, hash orders and ways to round", "why_tests_cant": "The claim covers all grammars, texts and options and all ways to round the weights, and compares the output to all derivations of each sentence.", "anchors": ["src/bin/csparsing.rs: parse", "src/grammars/lcfrs/csparsing/mod.rs: CSRepresentation::new, generate, debug, fallback", "src/util/factorizable.rs: impl Factorizable for LogDomain<f64>", "src/grammars/pmcfg/negra.rs: to_negra"]}
