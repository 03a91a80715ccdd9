# Formal model of rustomata: design

The model is written in Lean 4 (`lean/Verif/…`). The Rust code in `/repo` was read as text and never run;
every Lean definition cites the file and lines it models.

## Trusted base

* Lean 4.33.0's kernel, and the three standard axioms `propext`, `Classical.choice`, `Quot.sound`
  (the list per theorem is given at the end of this file). No own axioms, no `sorry`,
  no `native_decide`, no `bv_decide`.
* The faithfulness of the hand translation from Rust to Lean (each definition cites its source). `lean/Verif/Tests` evaluates the model on the inputs of the unit tests, the
  integration tests and the documentation tests of the repository and compares the results with the values that the repository expects; the model agrees with all of them.
  These are tests of the translation on samples, not proofs; no theorem depends on them.
* External crates and `std` containers are not modelled from their source:
  * `BinaryHeap`/`MinMaxHeap`: an abstract agenda with laws ("pop removes and returns some maximal element,
    push adds"). Theorems quantify over *every* agenda that satisfies the laws, so they hold for every tie-breaking.
  * `HashMap`, `HashSet`, `BTreeMap`, `BTreeSet`: finite maps and sets, represented by association lists, lists
    or predicates. Where the Rust code iterates over a `HashMap`, results are stated up to permutation.
  * `integeriser::HashIntegeriser`: a duplicate-free list; the key of a value is its position.
  * `log_domain::LogDomain<f64>`: weights are elements of an abstract commutative (ordered) monoid or
    semiring, and non-negative real numbers in C67. The theorems on recognition (C16 to C20, C23, C29 to C32,
    C51, C70, C71, C76) need neither associativity nor commutativity; C89 applies them to weights whose logarithms are rounded
    and bounds the error. In all other theorems, floating-point rounding is *not* modelled.
  * `nom` (version 3): the combinators that are used are modelled in `Model/Nom.lean` by functions from lists of
    character codes to results (`done`, `error`, `incomplete`, `panic`).
* Machine integers are modelled by `Nat`, except where a property is about wrap-around.

## Conventions

* A panic is an explicit `none`/error value.
* `&mut self` methods return the new value.
* If the code violates the stated property, the negation is proved on a concrete witness
  (theorem suffix `_violated`) and the strongest provable restriction has suffix `_partial`.

## Plan per property

| id | what is modelled | how it is proved |
|----|------------------|------------------|
| C01 | `Search::next` over an abstract agenda | induction over the number of steps; spec is the inductive reachability relation |
| C02 | same, agenda with multiset semantics | balance invariant `yielded + pending = initial + successors(yielded)` |
| C03 | `Search::bfs` with the `VecDeque` agenda | each queue element is popped after finitely many steps; induction over the path |
| C04 | same, max-agenda | invariant: everything pending ≤ everything yielded |
| C05 | `unique::Search::next` | invariant: yielded is duplicate-free and equals the `elements` set |
| C06 | same | violated by a duplicate on the agenda (witness); partial: if no duplicate is ever popped |
| C07 | `Vec`, `VecDeque` agendas | refinement to list stack / queue over operation sequences |
| C08 | `LimitedHeap` over an abstract min-max heap | invariant over push sequences: kept ≥ discarded |
| C09 | `BeamHeap` | decision logic and invariants |
| C10 | `UniqueHeap` | invariant over operations; violated for `From<Vec>` (witness), partial for the rest |
| C11 | `VecMultiMap` | refinement to `Nat → List` |
| C12 | `Partition` | fold invariant |
| C13 | `Pushdown` | refinement to lists |
| C14 | `Reverse` | order laws |
| C15 | integeriser as list, `integerise`/`un_integerise` of pushdowns, tree stacks, instructions, transitions | round trip and commutation |
| C16–C18 | `recognise` on top of the search model, generic over storage | from C01/C02/C04, spec is the inductive run relation |
| C19 | `recognise_beam` | from C01 and C08 |
| C20 | `check_run` | induction on the run |
| C21 | `replace` | spec: store split as `below ++ reverse cur` |
| C22 | `From<CFG>` for push-down automata | simulation in both directions with leftmost derivations |
| C23 | `PushDownAutomaton::new` | fold invariant |
| C24 | FSA | instance of C16/C17 and induction on paths |
| C25 | CFG from PMCFG | violated for copying and deleting rules; partial for linear non-deleting rules |
| C26 | `Mcfg::from_pmcfg` | fold invariant |
| C27 | `TreeStack` | refinement to (finite map from addresses, pointer) |
| C28 | TSA from PMCFG | violated (trailing terminals); partial for a restricted form |
| C29, C30 | `tts`, `relabel` | forward simulation |
| C31 | `ApproximationInstance` | violated when the coarse automaton merges transitions; partial otherwise |
| C32 | `coarse_to_fine` | violated (only the first coarse parse is used); partial: soundness |
| C33 | `dyck::recognize` | inductive grammar |
| C34 | multiple Dyck automaton | groupings |
| C35 | `Lcfrs::new` | decision logic; violated in corner cases; exact results for all rules (`Props/LcfrsNew`) |
| C36 | Mcfg → Lcfrs | rule-wise yield preservation; completeness violated through C06 |
| C37 | `evaluate` | recursion on trees |
| C38 | `separate_terminal_rules` | violated (witness) and partial |
| C39 | `Chart` | arithmetic |
| C40 | `RuleMaskBuilder::new`, `build` (order of the hash set is a parameter) | potential argument for the two worklists, least fixed points equal derivability over the terminals of the word; identifiers equal positions of the binarised productions; violated for words without a derivation |
| C41 | `SxInside`, `SxOutside` on top of `Automaton::from_grammar` | invariants of the two tables (closure under chain rules), induction over the context of a sub-derivation |
| C42 | `fill_chart` with the casts to `u8` | invariant of the search in a cell, induction over the size of spans; tables represent the binarised productions; violated for chain rules of weight > 1 |
| C43 | `read` of the enumeration; bracket words are specified by the parts of a component (`Spec/CsDerivation.lean`) | induction over derivations of the binarised grammar (a state stands for a component or for a prefix of a component); violated for nonterminals with several terminals |
| C44 | `ChartIterator`, `KBestTree`, `backtraces` | invariant of the lazy enumeration (cached prefix + agenda = sorted prefix of the forest), induction over span size and chain rank; violated for unchecked terminals and cyclic chain rules |
| C45 | `toderiv`; derivations with numbered rules and their encodings by parts (`Spec/CsDerivation.lean`) | `toderiv` inserts the visited rules, induction over derivations (encodings exist and cover all positions) and over the depth of parts (agreeing parts of all components form a derivation; weights are regrouped by a permutation of the variables); violated for nonterminals without components |
| C46 | `From<DiscoDopGrammar> for Lcfrs`, with weights in a division semiring | the map of denominators is the total of the counts; violated for zero counts |
| C47 | `parse_yield`, `from_binary`, the loops over bit masks and truth values | induction over components with the two counters; violated for components with more than 64 variables |
| C48 | the parsers of `util/parsing.rs`, `cfg/from_str.rs`, `pmcfg/from_str.rs`, `lcfrs/from_str.rs` on bytes, with the combinators of nom 3 (`Model/Nom.lean`), and `Display` of rules and grammars | each parser reads the printed part and leaves the rest; violated for symbols that need escapes and for the initial nonterminal of an LCFRS |
| C49 | NEGRA export (`to_negra`, `meets_negra_criteria`, `noparse`; text of numbers as in C48) | relational induction between the tree with numbered terminals and the tree with located terminals; invariant of the queue of nodes; violated for a terminal at the root (panic) and for nodes without terminals (not listed) |
| C50 | `Search::dfs` with the `Vec` agenda | induction over the finite unfolding |
| C51 | `recognise` of the three kinds of automata | invariant: reachable stores are not empty; violated for push-down automata that empty their store |
| C52 | `EquivalenceRelation` and its parser | induction over classes and lines |
| C53 | `to_abstract_syntax_tree` | bijection of runs and derivations (C15) |
| C54 | `CSRepresentation::new`, `generate`, `with_fallback` (first component) | composition of C40–C45: chart derivations are derivations of the approximation, these correspond one to one to parts (spelling and injectivity of bracket words), consistent parts correspond one to one to derivations; violated for unchecked terminals |
| C55 | `CowDerivation::new`, `fallback`, `merge_rules`, `collect_children`, `fallback_vec`, `with_fallback` (second component), `debug` | cow derivations are the parts of a bracket word; induction on the depth of a group of components: the renumbering is a bijection onto the new right-hand side, the merged rule composes the words of the children to the words of the group; violated for unchecked terminals |
| C56 | same parsers | the combinators preserve “panics only if”; violated for PMCFG rules with a malformed weight |
| C57 | the readers of `from_discodop.rs`, `from_rparse.rs` on characters and the conversions to `Lcfrs` | each parser reads the described part and leaves the rest; lists with separators by induction |
| C58 | same readers | the combinators consume input; violated (no errors, truncated files, `unwrap`) |
| C59 | `with_default_lexer` | invariant of the map of flags |
| C60 | `Transition::from_str`, `from_str` of both kinds of automata and of their instructions | grammar of the file format as inductive relations; parser combinators step by step, loop over the lines by induction |
| C61 | `Display` of transitions, instructions and automata | the printed text is in the format of C60; counterexamples |
| C62 | the same as C60 | inversion of a panicking parse; counterexamples |
| C63 | `Model/Ord`: `==`, `cmp`, `partial_cmp` and the input of `hash`, with the operations of type parameters as arguments; addresses of `Rc` where they are compared | three-way comparisons of three values; tree stacks by a normal form without trailing `None`; counterexamples where weights are ignored by `==` only |
| C64 | `Model/ClassText`: `parse_class`, `parse_set`, both `from_str` | the texts are described by a relation between input, value and rest (`Spec/Reading`); each parser returns a value iff the relation holds (`Proofs/Reading`), loop over lines by induction; counterexample for trailing text |
| C65 | the parsers of C48 and C60 | the file format as relations between input, value and rest; for each parser, it returns a value iff the relation holds; loops over lines by induction; counterexample for trailing text |
| C66 | `Model/CsCommand`: the loop over the lines of `csparsing parse`, `split_line`, `split_pos`; with `CsParse` and `Negra` | splitting: iff with a specification of lines; output: C54, C55 and C49 composed, empty sentences separately (`Proofs/CsEmpty`); whole text by induction over the lines; counterexample for terminal rules at the root |
| C67 | `Model/Factorize`: `factorize` on non-negative real numbers and on `()` | laws of real powers; C54 and C66 instantiated |
| C68 | as C28 and C53 | the run is determined by the rules in the final tree stack (induction on runs, labels persist); transitions occur once (induction over the construction); no run is found twice (invariant of the search) |
| C69 | `Model/McfgCommand`: the loops of `mcfg parse --negra` over lines and parses; with `FromStr`, `FromPmcfg`, `Recognise` and `Negra` | C65, C68, C53, C18 and C49 composed; more steps prolong the output (`Proofs/Prefix`), whole text by induction over the lines; counterexamples for blank lines and terminal rules at the root |
| C70 | `Search`, `Recognise`, `FromPmcfg`, `McfgCommand` | the part of the search tree with weights of at least `v` is finite, so its size decreases until no such item is on the agenda (`Proofs/Fair`); a potential of tree stacks bounds runs by the number of pushes (`Proofs/TsaLength`); paths of left corners give runs (`Proofs/LeftRec`); counterexample with left recursion of weight one |
| C71 | `Search`, `Recognise`, `FromPmcfg`, `McfgCommand` | the beginnings of a run are different items, so unbounded runs exclude an end; without left recursion the pushes between two symbols form a path of left corners without repetitions, which bounds the pushes by the length of the word (`Proofs/LeftRec`), and with C70 the runs; composed with C69 |
| C72 | `Cfg`, `Pda`, `Search`, `Recognise` | spec: left corners, exposed nonterminals (`Spec/CfgLeft`), merged grammars (`Spec/CfgMerge`); the expansions without reading are well-founded if no exposed nonterminal is left recursive, so the runs are bounded (`Proofs/CfgEnds`); a left recursive exposed nonterminal gives runs of each length; with C71; fairness as in C70, with the bound from the number of rules in a run |
| C73 | `CfgCommand` (`cfg parse`) on top of `FromStr`, `Cfg`, `Pda`, `Recognise` | the parses are in bijection with the leftmost derivations of the merged grammar (`Proofs/CfgMerge`); composed with C17, C18, C65, C72 and the text lemmas of C66 |
| C74 | `Approximation` (`relabel`), `Cfg`, `ClassText`, `ApproximationCommand` (`approximation relabel parse`) | merging twice is merging once (`Proofs/Relabel`), so the relabelled automaton represents the transitions for the relabelled grammar; `Proofs/CfgAutomaton` has the lemmas of C22, C72, C73 for all such automata |
| C75 | `Approximation` (`tts`), `FromPmcfg`, `ApproximationCommand` (`approximation tts parse`) | the keys of the approximated transitions (`Proofs/Components`); the pushdown is a sentential form of the grammar of the components, so runs correspond to runs of the automaton of this grammar in both directions (`Proofs/ComponentsRun`); C75_over_violated: two terminals at the end of a component |
| C76 | `AutomatonText` (`TSA.fromStr`), `Tsa`, `TsaCommand` (`tsa recognise`) | the file by C65; the first items of the search are the best runs (`Proofs/TopOf`); no panic by C51, the end by C70 and C71; then induction over the lines |
| C77 | as C28 and C53 | visits (`Spec/Visits`); soundness by an invariant of the tree stack over the transitions (`Proofs/VisitsSound`), completeness by induction over visits (`Proofs/VisitsRuns`), derivations by induction (`Proofs/VisitsDerives`) |
| C78 | as C77 | the run is determined by the rules in the tree stack (`Proofs/VisitsOnce`); its length is bounded by its depth with a potential in which deeper nodes weigh less (`Proofs/VisitsLength`); first visits at the left (`Spec/LeftVisit`, `Proofs/VisitsLeft`) |
| C79 | `Model/ParseText`; text of tree stacks, positions and configurations, and the command | the drawing is defined by the labels of the nodes (`Spec/ParseText`); reading it back line by line (`Proofs/ParseText`); what the stored rules show (`Proofs/ShownParses`) with C77 and C78 |
| C80 | `Model/AutomatonCommand`; text of pushdowns, pushdown instructions and pushdown automata, and the four commands | the lines are defined from the merged grammar (`Spec/AutomatonCommand`, C73); a line that begins with the rule of an initial nonterminal has too many words to be read (`Proofs/AutomatonCommand`) |
| C81 | no new model; `Model/CsKBest`, `Model/CsParse` | the lists of the k best derivations are shown to be correct by induction on the position and on the state, ordered by the weights (`Proofs/CsKBestTable`, `CsKBestGrow`, `CsKBestTop`, `CsKBestCycles`); there are finitely many derivations with at least a given weight (`CsKBestFair`); parser: `CsMainCycles` |
| C82 | no new model; `Model/CsChart`, `Model/CsFill`, `Model/CsKBest`, `Model/CsCommand` | the index of a span that ends at position 256 does not exist; the last word of a derivation is proposed for such a span (`Proofs/CsLong`) |
| C83 | no new model; `Model/CsKBest`, `Model/CsParse` | the heap of backtraces is described as a process (`Emits`) whose results do not depend on the order of weights: each element that is pushed is popped, and successors are pushed at each pop (`Proofs/CsKBestAny`, `Proofs/CsKBestAnyKth`); the lists of the iterator are the outputs of the process, by induction on spans and ranks; `Proofs/CsMainAny` for the grammar |
| C84 | no new model; `Model/CsCommand` | as C66, from the results of C83 (`Proofs/CsCommandAny`); the export of a derivation of another sentence of the same length |
| C85 | no new model; `Model/FromStr`, `Model/AutomatonText` | for each parser combinator, the inputs on which it panics (`Proofs/Panics`); the descriptions in `Spec/Panics` do not mention the parsers |
| C86 | `Model/CsExtract` (`extractGrammar`, `extract`, `extractParse`) | the described grammar is a grammar of the parser with probabilities (`Proofs/CsExtract`), then C67, C66 and C84; conditions are stated on the lines of the files (`Spec/CsExtract`) |
| C87 | the models of C54, C66 and C81 | `Ends` (`Spec/CsEnds`) says that finitely many calls suffice; stability of the first results under further calls, fairness of the enumeration (C81), and a maximal list of derivations (`Proofs/CsEnds`, `Props/CsEnds`); the witness has a pumped chain of chart derivations |
| C88 | the models of C86 and C87 | `Productive` (`Spec/Productive`); a rule with the relative frequency one is the only rule of its left-hand side, so a cycle of weight one would be an infinite descent in derivations (`Proofs/Productive`); then C81 and C87 apply (`Props/CsExtractCycles`) |
| C89 | the models of C16 to C18; the arithmetic of `LogDomain<f64>` is described in `Spec/Rounding`: logarithms that can be represented, `⊥` for the weight zero, rounded sums | instances of C16 and C18, which hold without associativity; the error of a run by induction on its length (`Proofs/Rounding`, `Props/Rounding`) |
| C90 | `coarse_to_fine_recogniser!` and `recognise` of the nested recognisers (`Model/CoarseToFine`) | induction over the strategies from the coarsest level with `C32_step_sound` and `C32_step_exact_partial`, which hold for any recogniser of the coarse automaton; a level has at most one parse if the transitions remain different; the claim that a parse is found is violated |
| C91 | `ChartIterator` (`Model/CsKBest`), `CSRepresentation::parse` (`Model/CsParse`) for charts whose weights are not those of best derivations | each cell is a stream, defined by recursion over `k · M + rank`, where the rank counts the states that first candidates lead to (first candidates form no cycle, because they do not lower the weight); the cache holds prefixes of the streams; fairness: the weights of a stream fall below any weight, since long chains vanish, hence each candidate in the heap is popped |
| C92 | `csparsing parse` and `csparsing extract` (`Model/CsCommand`, `Model/CsExtract`) | the streams of C91 give the candidates, the fallback and the debug result for each number of calls; the results that are shown do not change after the search has ended (`Ends`, as in C87); the text depends only on these (`line_text_by`, for any relation between trees and texts) |
| C93 | `is_consistent`, `to_mcfg_deriv` (`Model/CsParse`), `Spec/CsCow` | nodes of a list of trees at a position (`cowNodes`), `groups` splits them by the first index; induction on the depth for both directions; for words of the context-free approximation, the nodes at a position are the visits of the parts, and a node for one component of a nonterminal gives nodes for all components of all nonterminals, as far as the rules agree (`cowSafe_group`); sorted maps with the same entries are equal |
| C94 | the parsers of `from_discodop.rs` and `from_rparse.rs` (`Model/Import`), relations on texts in `Spec/ImportReads` | each parser is shown equivalent to a relation, for results and for panics; lists with separators by one induction on the length of the rest (`sepGo_iff`), instantiated for components, tags, lines of rules, lexicons and clauses |
| C95 | the hand-written `Serialize` and `Deserialize` of `Partition` and `MultipleDyckAutomaton` (`Model/Serde`) on the level of serde's sequences | sorted maps with the same lookups are equal; runs depend on the set of transitions only, C34 |
| C96 | `CFG::from(PMCFG)` for arbitrary grammars (`Spec/Split`: grammar with a nonterminal per occurrence of a variable) | the split grammar is converted to the same CFG and meets the condition of C25; inclusion and equality of languages by induction on derivations |
| C97 | `map_nonterminals`, `PosState::map`, `TreeStackInstruction::map` (`Model/MapNonterminals`) with the construction of the automaton | induction on derivations; the construction commutes with renaming function by function; renaming simulates instructions |
| C98 | `recognise_beam_search`, `LimitedHeap`, the commands with `--beam` | the proofs of C18, C71-C79 only need an agenda that returns a maximum of what it contains (`Sound` and `PopsMax`); a beam as large as the greatest agenda loses nothing; the refuted claim has a concrete finite state automaton as counterexample |
| C99 | `Search::bfs(…).uniques()`, `Lcfrs::from(Mcfg)` | what was returned followed by the reversed queue equals the start followed by the discoveries (induction on the steps); the head of the queue is a repetition when the search ends; uniqueness of the list by comparing prefixes; in non-deleting grammars all deletion sets are empty, so that the search is one for nonterminals |
| C100 | `Display` of `Bracket` and `BracketContent` | texts are lists of bytes; two decompositions at the first bracket character agree; numbers are separated by characters that are no digits |
| C101 | parser of C54, C55 with weights that satisfy no laws | the proofs of `C42_sound`, `C44_sound`, `C44_terminals` use no law but commutativity, so they are stated for such weights; weights of a derivation in the automaton are then replaced by constants, for which the words of derivations are known (C45, C55) |
| C102 | enumeration of candidates (C44) with rounded weights | exact weights: from C54, since the numbers of rules are determined by the rules; rounded weights: a type of rounded costs that is embedded into the rounded logarithms of C89, and a run of the parser |
| C103 | chart, candidates and conversion (C41, C42, C44, C83) with rounded weights | the proofs of C41, C42 and C83 need no associativity: `RoundedWeight` lists the laws that are used, rounded logarithms satisfy them; soundness by C101 |
| C104 | chart, candidates and conversion (C42, C44, C54) with rounded weights | induction over the rank of an item (length of the span, then rank of the state): for the lists of candidates of each item, computed weights, weights in the chart and exact costs differ by bounded factors, and the order of exact costs holds up to a factor that is increased with each rank; the cost of a candidate is the cost of its derivation: the weights are paired with costs, whose sums are associative, so that C45 can be used |
| C105 | as C104; `Model/RoundedFactorize`: `factorize` for rounded logarithms (`pow` of the crate `log_domain` is modelled as a rounded product of the logarithm and the exponent) | the order of C104 together with the completeness of C103: a derivation that was not returned yet is behind the next result in the list of all candidates; the errors of the quotient and of the product are multiplied |
| C106 | command `csparsing parse` (C66, C84) with rounded logarithms | C84 is proved for weights whose multiplication is rounded (the fallback does not depend on weights, so that C55 is used with other weights); the list of results is the one of C101, C104 and C105 |

<!-- generated by tools/appendix.py -->

## Functions of the source without a definition of their own in the model

For each source file: the number of its functions, and those whose lines are not cited by a definition of the model. These are `Display` and `Debug` implementations that no property mentions, wrappers (iterators, constructors, setters, conversions) whose effect is part of the model of their callers, methods of `Reverse` and `GornTree` that forward to the inner type, the reading of options and files in `src/bin`, and code that is not compiled (`int_automaton.rs`, `relabel.rs` of PMCFGs, `try_debug.rs`, `src/bin/coarse_to_fine.rs`). All other functions have a model.

* `search/src/agenda/beam_heap.rs`: 15; without: `new` (21-26), `peek` (42-44), `len` (50-52), `clear` (54-56), `new` (72-74), `push` (76-82), `pop` (84-86), `clear` (88-90), `len` (92-94), `peek` (96-98), `into_iter` (107-109), `clone` (118-123), `into_iter` (134-136)
* `search/src/agenda/binary_heap.rs`: 8; without: `new` (17-19), `len` (21-23), `clear` (25-27), `push` (29-32), `pop` (34-36), `peek` (38-40), `from_iter` (47-56), `into_iter` (65-67)
* `search/src/agenda/limited_heap.rs`: 14; without: `clear` (38-40), `len` (42-44), `peek` (46-48), `with_capacity` (64-66), `push` (68-71), `pop` (73-75), `clear` (77-79), `len` (81-83), `peek` (85-87), `into_iter` (96-98), `into_iter` (110-112)
* `search/src/agenda/mod.rs`: 26; without: `push` (89-91), `pop` (93-95), `peek` (97-99), `len` (101-103)
* `search/src/agenda/weighted.rs`: 8; without: `get_weight` (7-7), `get_weight` (12-14), `get_weight` (47-49), `from` (63-65)
* `search/src/search.rs`: 8; without: `with_agenda` (26-28), `uniques` (40-42), `weighted` (74-76)
* `src/approximation/equivalence_classes.rs`: 10; without: `from` (25-30), `new` (58-63)
* `src/approximation/mod.rs`: 9; without: `new` (70-75), `approximate_storage` (77-82), `approximate_instruction` (84-86)
* `src/approximation/relabel.rs`: 3; without: `new` (18-20)
* `src/approximation/tts.rs`: 3; without: `new` (17-21)
* `src/automata/finite_state_automaton/from_str.rs`: 2
* `src/automata/finite_state_automaton/mod.rs`: 16; without: `from_transitions` (132-137), `transitions` (139-143)
* `src/automata/push_down_automaton/from_cfg.rs`: 3
* `src/automata/push_down_automaton/mod.rs`: 33; without: `map_mut` (83-96), `from_transitions` (228-233), `transitions` (235-239), `iter` (335-337), `map_mut` (348-355), `from` (382-384)
* `src/automata/tree_stack_automaton/from_pmcfg.rs`: 4
* `src/automata/tree_stack_automaton/from_str.rs`: 2
* `src/automata/tree_stack_automaton/mod.rs`: 16; without: `transitions` (106-123), `recognise_beam_search` (138-144), `from_transitions` (158-163), `initial_int` (229-231)
* `src/automata/tree_stack_automaton/tree_stack.rs`: 19
* `src/automata/tree_stack_automaton/tree_stack_instruction.rs`: 5
* `src/bin/approximation.rs`: 2; without: `get_sub_command` (16-108)
* `src/bin/cfg.rs`: 2; without: `get_sub_command` (10-52)
* `src/bin/coarse_to_fine.rs`: 2; without: `handle_sub_matches` (189-537)
* `src/bin/csparsing.rs`: 6; without: `new` (138-144), `read` (146-157)
* `src/bin/main.rs`: 1; without: `main` (16-36)
* `src/bin/pmcfg.rs`: 2; without: `get_sub_command` (12-60)
* `src/bin/tree_stack_automata.rs`: 3; without: `get_sub_command` (15-55)
* `src/dyck/mod.rs`: 2
* `src/dyck/multiple/automaton/instruction.rs`: 2
* `src/dyck/multiple/automaton/mod.rs`: 13
* `src/dyck/multiple/mod.rs`: 3
* `src/grammars/cfg/from_pmcfg.rs`: 1
* `src/grammars/cfg/from_str.rs`: 5; without: `parse_composition` (110-118)
* `src/grammars/cfg/mod.rs`: 6; without: `from` (21-25)
* `src/grammars/lcfrs/conversion.rs`: 3
* `src/grammars/lcfrs/csparsing/automaton/chart.rs`: 9; without: `get_meta` (91-93)
* `src/grammars/lcfrs/csparsing/automaton/estimates.rs`: 13
* `src/grammars/lcfrs/csparsing/automaton/kbest/backtrace.rs`: 9
* `src/grammars/lcfrs/csparsing/automaton/kbest/mod.rs`: 6
* `src/grammars/lcfrs/csparsing/automaton/mod.rs`: 4; without: `states` (262-264)
* `src/grammars/lcfrs/csparsing/automaton/rulemask.rs`: 2
* `src/grammars/lcfrs/csparsing/cowderiv.rs`: 9
* `src/grammars/lcfrs/csparsing/mod.rs`: 11; without: `set_candidates` (83-85), `set_beam` (86-88), `set_delta` (89-91), `allow_root_prediction` (92-94)
* `src/grammars/lcfrs/from_discodop.rs`: 12; without: `from_str` (351-353)
* `src/grammars/lcfrs/from_rparse.rs`: 4
* `src/grammars/lcfrs/from_str.rs`: 1
* `src/grammars/lcfrs/mod.rs`: 6
* `src/grammars/mcfg/mod.rs`: 4; without: `new` (12-14), `destruct` (15-17), `from` (21-24)
* `src/grammars/pmcfg/from_str.rs`: 7
* `src/grammars/pmcfg/mod.rs`: 23; without: `unwrap_var` (39-45), `unwrap_t` (47-53), `len` (63-65), `iter` (67-69), `index` (74-76), `from` (80-84), `into_iter` (91-93), `into_iter` (100-102), `into_iter` (109-111), `from` (189-195)
* `src/grammars/pmcfg/negra.rs`: 8; without: `from` (12-17), `fmt` (21-23)
* `src/grammars/pmcfg/relabel.rs`: 1; without: `relabel` (10-22)
* `src/recognisable/automaton.rs`: 12
* `src/recognisable/coarse_to_fine.rs`: 5
* `src/recognisable/configuration.rs`: 5
* `src/recognisable/from_str.rs`: 3; without: `parse_word` (67-73)
* `src/recognisable/int_automaton.rs`: 8; without: `extract_key_int` (26-26), `is_terminal_int` (28-28), `item_map` (30-115), `transitions_int` (33-33), `initial_int` (35-35), `terminal_to_int` (37-37), `recognise` (41-72), `recognise_beam` (75-113)
* `src/recognisable/mod.rs`: 4; without: `get_weight` (34-36), `recognise` (44-44), `recognise_beam_search` (46-52)
* `src/recognisable/transition.rs`: 8
* `src/util/factorizable.rs`: 3
* `src/util/integerisable.rs`: 4; without: `integerise` (29-29), `un_integerise` (31-31)
* `src/util/parsing.rs`: 7
* `src/util/partition.rs`: 6
* `src/util/push_down.rs`: 16; without: `peek_ref` (95-100), `iter` (129-131), `default` (135-137), `into` (151-165)
* `src/util/reverse.rs`: 21; without: `fmt` (33-35), `from_str` (44-46), `add_assign` (85-87), `sub` (95-97), `sub_assign` (104-106), `mul_assign` (123-125), `div` (133-135), `div_assign` (142-144), `rem` (152-154), `rem_assign` (161-163), `from` (177-179), `unwrap` (183-185), `inner` (187-189)
* `src/util/tree.rs`: 21; without: `new` (14-18), `clear` (20-22), `get` (24-29), `contains_key` (31-36), `get_mut` (38-43), `insert` (45-47), `remove` (49-54), `append` (56-58), `entry` (60-62), `split_off` (64-71), `keys` (73-75), `values` (77-79), `values_mut` (81-83), `len` (85-87), `is_empty` (89-91), `cloned` (95-97), `into_iter` (104-106), `into_iter` (113-115), `into_iter` (122-124), `from_iter` (134-141)
* `src/util/try_debug.rs`: 2; without: `fmt` (6-8), `fmt` (12-14)
* `unique-heap/src/lib.rs`: 11; without: `is_empty` (68-70), `into_iter` (154-156), `into_iter` (168-170)
* `vecmultimap/src/lib.rs`: 16

## Axioms of the theorems

* no axioms: C14_reverse_arithmetic, C48_plain

* `propext`: C100_bracket, C100_word_partial, C100_violated, C13_pushdown_slice, C13_pushdown_map, C17_unknown_terminal, C20_check_run, C31_transition, C31_violated, C33_pairs, C34_subset, C35_lcfrs_new_panic_violated, C38_normal_form_violated, C51_pda_no_panic_violated, C63_pushdown, C63_pointer_violated, C63_weights, C63_from_classes_violated, C63_backtrace_hash, C67_unit, C85_fs_instruction

* `Quot.sound`, `propext`: C03_bfs_complete, C03_bfs_order, C05_unique_nodup_through, C06_unique_complete_through_partial, C07_vec_is_stack, C07_deque_is_queue, C08_limited_capacity, C08_limited_push_pop, C09_beam_push, C09_beam_accepts_best, C10_from_iter_first_weight, C12_new_iff_disjoint, C19_beam_waiting, C19_beam_large_enough, C20_check_run_exec, C20_check_run_confirms, C21_replace, C21_replace_error, C22_weights_violated, C23_new_panics, C25_cfg_copying_violated, C25_cfg_deleting_violated, C26_mcfg_from_pmcfg, C27_new, C28_panics, C28_empty_word, C28_language_violated, C28_trailing_terminals_violated, C28_unordered_violated, C30_simulation, C30_instruction, C32_violated, C32_terminates, C33_recognize, C33_insert, C35_lcfrs_new_violated, C36_mcfg_lcfrs_violated, C36_malformed_violated, C37_evaluate, C37_evaluate_panics, C37_evaluate_unused, C38_string_names, C46_weights, C47_rparse, C47_discodop_long, C47_violated, C47_panics, C48_token, C48_cfg_rule, C48_cfg_head, C49_criteria, C49_root_violated, C50_dfs_preorder, C52_new_safe, C52_project, C52_from_classes, C52_lines_violated, C52_lines_partial, C53_sound_violated, C53_complete_violated, C56_cfg_rule, C56_cfg, C56_pmcfg_rule_partial, C56_pmcfg_partial, C56_lcfrs_partial, C58_discodop_no_error, C58_discodop_panics_partial, C58_lexicon_no_error, C58_rparse_error, C59_default_lexer, C60_fs_transition, C61_fs_transition, C62_transition_partial, C62_transition_panics, C62_fsa_partial, C62_tsa_partial, C64_total, C90_demand, C90_violated, C95_deserialize_panics, C97_derives, C97_generates, C97_transitions, C97_runs, C97_language, C97_total, C98_zero, C98_large, C98_cfg_large, C98_tsa_large, C99_unique, C99_violated

* `Classical.choice`, `Quot.sound`, `propext`: C01_search_sound, C01_agendas, C02_search_balance, C02_search_exhaustive, C02_agendas, C04_weighted_sorted, C04_weighted_best_first, C05_unique_nodup, C06_unique_complete_violated, C06_unique_complete_partial, C06_unique_complete_forest_partial, C08_limited_best_k, C09_beam_pushes, C10_unique_heap_partial, C10_into_sorted_vec, C10_from_vec_violated, C100_content, C100_delta, C101_length, C101_sentence_partial, C101_logarithms, C101_violated, C102_exact_partial, C102_violated, C103_parses, C103_logarithms, C103_rounded, C104_order, C104_exact, C104_exact_violated, C105_new, C105_best, C105_exact, C105_exact_violated, C105_factors, C105_zero, C105_sum, C105_logarithms, C106_command, C11_multimap_refines, C11_into_vec, C11_into_vec_with_size, C12_lookup, C12_collapse, C13_pushdown_refines, C14_reverse_order, C14_reverse_total, C14_reverse_search, C14_reverse_mono, C15_symbol, C15_stable, C15_distinct, C15_idempotent, C15_word, C15_stack, C15_pushdown, C15_pd_instruction, C15_fs_instruction, C15_pd_transition, C15_fs_transition, C15_pd_apply, C15_fs_apply, C15_ts_stack, C15_ts_instruction, C15_ts_transition, C15_ts_apply, C15_tsa_new, C16_pda_sound, C16_fsa_sound, C16_recognise_sound, C16_tsa_sound, C17_pda_exact, C17_recognise_terminates, C17_fsa_exact, C17_recognise_complete, C17_recognise_at_most, C17_recognise_exact, C17_tsa_exact, C18_pda_sorted, C18_pda_best_first, C18_fsa_best_first, C18_recognise_sorted, C18_recognise_best_first, C18_tsa_best_first, C19_beam_sound, C22_language, C22_weights_partial, C22_no_panic, C22_recognise, C22_merged, C23_new, C24_language, C24_recognise, C24_terminates, C25_cfg_language_partial, C25_cfg_panics, C26_mcfg_from_pmcfg_none, C27_pointer, C27_tree, C27_to_tree_sorted, C27_set, C27_push, C27_push_next, C27_up, C27_ups, C27_down, C27_all, C27_instruction_up, C27_instruction_push, C27_instruction_down, C28_automaton, C28_deleting_violated, C28_sound_partial, C28_complete_partial, C28_language_partial, C28_recognise_partial, C29_storage, C29_instruction, C29_simulation, C29_automaton, C29_weight, C30_automaton, C30_weight, C31_run, C31_nodup, C31_automaton_partial, C32_items, C32_sound, C32_exact_partial, C32_step_sound, C32_step_exact_partial, C34_no_panic, C34_language, C34_sorted_language, C34_recognize, C34_sorted_recognize, C35_lcfrs_new_partial, C35_lcfrs_new_nonzero_partial, C35_accepts, C35_panics, C35_accepts_lcfrs, C36_sound, C36_language_partial, C36_nondeleting, C36_linear, C36_is_lcfrs_partial, C36_terminates, C36_no_panic, C37_evaluate_derivation, C38_normal_form_partial, C38_evaluation, C38_evaluation_derivation, C38_terminates, C39_in_range, C39_injective, C39_fills, C39_state_in_range, C39_state_injective, C39_state_fills, C39_chart_refines, C40_new_total, C40_mask, C40_unproductive, C40_derivation_kept, C40_unproductive_violated, C41_total, C41_overestimate, C41_no_parse_lost, C42_tables, C42_sound, C42_best_partial, C42_best_parse_partial, C42_total, C42_long_sentences_panic, C42_best_violated, C43_dyck, C43_sentence_partial, C43_sentence_violated, C44_enumerates_partial, C44_filled_partial, C44_complete_partial, C44_deterministic, C44_sound, C44_terminals, C44_order_violated, C44_cycle_violated, C45_none, C45_derivation_partial, C45_word_partial, C45_no_components_violated, C46_sum, C46_positive, C46_violated, C47_rparse_text, C47_discodop, C47_discodop_text, C47_linear, C48_pmcfg_rule, C48_pmcfg, C48_lcfrs, C48_pmcfg_head, C48_unrestricted_violated, C48_lcfrs_violated, C49_lines, C49_panics, C49_yield, C49_derivation, C49_text, C49_nodes_violated, C49_noparse, C49_noparse_words, C49_noparse_default, C51_pda_no_panic_partial, C51_fsa_no_panic, C51_tsa_no_panic, C53_ast_sound_partial, C53_ast_complete_partial, C54_new_total, C54_parses_partial, C54_claim_partial, C54_pruned_partial, C54_length, C54_deterministic, C54_lexicon_violated, C54_root_violated, C67_parses_partial, C55_fallback, C55_evaluate, C55_length, C55_sentence_partial, C55_claim_partial, C55_with_fallback_partial, C55_debug_partial, C55_lexicon_violated, C56_violated, C57_grammar, C57_discodop, C57_rparse, C58_violated, C58_discodop_cut, C58_lexicon_cut, C58_rparse_cut, C58_rparse_weight, C59_weight, C60_fs_instruction, C60_ts_instruction, C60_ts_transition, C60_fsa, C60_fsa_error, C60_tsa, C60_tsa_error, C61_ts_transition, C61_tsa_partial, C61_tsa_zero_partial, C61_tsa_violated, C61_fsa_unreadable, C61_fsa_violated, C62_fsa_violated, C62_tsa_violated, C63_configuration, C63_transition, C63_item, C63_configuration_violated, C63_transition_violated, C63_partial_cmp_violated, C63_cfg_rule, C63_pmcfg_rule, C63_pushdown_pointer, C63_tree_stack, C63_tree_stack_pointer, C63_tree_stack_meaning, C63_gorn_tree, C63_backtrace, C63_equivalence_relation, C63_hash_separates, C64_class, C64_relation, C64_project_partial, C64_violated, C65_cfg_rule, C65_pmcfg_rule, C65_cfg, C65_pmcfg, C65_lcfrs, C65_fs_transition, C65_ts_transition, C65_fsa, C65_tsa, C65_violated, C66_split, C66_line_partial, C66_command_partial, C66_claim_partial, C66_long, C66_form, C66_root_violated, C67_command_partial, C67_factorize, C67_factors, C67_new, C68_once_partial, C68_derivation, C68_one_to_one_partial, C68_same_rules_violated, C69_claim_partial, C69_no_panic_partial, C69_sentence_sound_partial, C69_steps, C69_sentence_best_partial, C69_command_sound_partial, C69_command_best_partial, C69_grammar, C69_empty_violated, C69_violated, C69_root_violated, C70_fsa, C70_pda, C70_tsa, C70_fsa_found, C70_pda_found, C70_tsa_found, C70_pmcfg_partial, C70_pmcfg_found_partial, C70_sentence_partial, C70_probabilities, C70_claim_partial, C70_violated, C71_fsa, C71_pda, C71_tsa, C71_pmcfg_partial, C71_left_recursion_partial, C71_sentence_partial, C71_command_partial, C71_claim_partial, C71_violated, C72_word, C72_ends, C72_all, C72_fair, C73_no_panic, C73_sentence_sound, C73_sentence_best, C73_sentence_ends, C73_sentence_fair, C73_steps, C73_command_sound, C73_command_best, C73_command_total, C73_grammar, C74_automaton, C74_language, C74_ends, C74_command, C74_command_total, C74_panic, C75_automaton, C75_short, C75_over, C75_ends, C75_bound, C75_command, C75_command_total, C75_panic, C75_over_violated, C76_no_panic, C76_sentence_sound, C76_sentence_best, C76_steps, C76_sentence_ends, C76_sentence_fair, C76_command_sound, C76_command_best, C76_command_total, C76_command_reading, C76_panic, C77_sound, C77_complete, C77_language, C77_recognise, C77_ast, C77_nondeleting_sound, C77_ordered, C78_once, C78_labels, C78_one_to_one, C78_depth, C78_ends, C78_left_recursion, C78_fair, C78_found, C79_drawing, C79_determines, C79_symbols, C79_shows, C79_no_panic, C79_sentence_sound, C79_sentence_best, C79_steps, C79_sentence_ends, C79_sentence_fair, C79_command_sound, C79_command_best, C79_command_total, C79_panic, C80_cfg, C80_cfg_panic, C80_relabel, C80_relabel_panic, C80_mcfg, C80_mcfg_panic, C80_not_read, C80_tts, C80_tts_panic, C80_ambiguous_violated, C80_stack, C81_enumerates, C81_filled, C81_candidate, C81_prefix, C81_pruned, C81_best, C81_fair, C81_probability_cycles, C81_probabilities, C81_claim_partial, C81_cycle_violated, C82_no_result, C82_panic, C82_line, C82_command, C83_enumerates, C83_filled, C83_parses, C83_pruned, C83_answers, C83_probabilities, C83_once_violated, C83_order_violated, C84_line, C84_command, C84_probabilities, C84_words_violated, C85_pmcfg_rule, C85_pmcfg, C85_lcfrs, C85_pmcfg_error, C85_ts_instruction, C85_fs_transition, C85_ts_transition, C85_fsa, C85_tsa, C86_disco, C86_lexer, C86_plain, C86_plain_grammar, C86_panics, C87_limit, C87_acyclic, C87_enough, C87_results, C87_line, C87_command, C87_claim_partial, C87_cycle_violated, C88_cycles, C88_disco, C88_unproductive, C89_order, C89_error, C89_fsa, C89_pda, C89_tsa, C89_not_associative, C89_no_fading, C90_sound, C90_pda_sound, C90_one, C90_exact_partial, C90_pda_exact_partial, C91_enumerates, C91_filled, C91_complete, C91_no_cycle, C91_pruned, C91_fair, C91_answers, C91_probabilities, C92_limit, C92_acyclic, C92_enough, C92_results, C92_line, C92_command, C92_probabilities, C92_lexer, C92_plain, C93_no_components_violated, C93_consistent, C93_deriv, C93_returns, C93_none, C93_panic, C93_inconsistent, C93_word, C93_same_partial, C94_rules, C94_rules_panic, C94_lexicon, C94_lexicon_error, C94_rparse, C94_rparse_panic, C94_rparse_error, C95_partition, C95_deserialize, C95_mdl, C95_sorted_mdl, C96_split, C96_over, C96_noncopying, C97_injective, C98_sorted, C98_ends, C98_cfg_sentence, C98_cfg_command, C98_tsa_sentence, C98_plain_sentence, C98_negra_sentence_partial, C98_mcfg_large, C98_violated, C99_bfs, C99_lost, C99_mcfg, C99_language
