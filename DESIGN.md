# Formal model of zope.index in Lean 4: design

The Lean project is in `lean/`. Model files `Verif/Model/*.lean` mirror the Python source function
by function and cite it. Specifications are in `Verif/Spec/*.lean`. Helper lemmas are in
`Verif/Proofs/*.lean`. Property theorems, with the ids of `properties.jsonl`, are in
`Verif/Props/*.lean`; each file also holds non-vacuity `example`s.

## Approach

* **Containers.** BTrees sets, maps and `Length` are library code outside the repo. They are
  modelled by `SMap K V`, a list of pairs with strictly increasing keys (the order in which BTrees
  iterate), and `SSet K`. Their documented behaviour (get, set, del, keys from a bound, union,
  intersection, multiunion, weightedUnion ...) is part of the trusted reading. Two `SMap`s with the
  same lookups are equal, so "equal states" is meaningful.
* **Exceptions** are values of `PyErr`; a method that can raise returns `Except PyErr _`, and where
  Python leaves a partially updated object behind, the model returns state and exception.
* **Values.** Field values are any type with the BTree total order plus the information which pairs
  Python's `<` refuses (`PyValue`). Characters are Lean `Char`s; which characters are `\w`, white
  space, and how `lower`/`upper` map them are parameters, so theorems hold for every Unicode table
  that meets the stated hypotheses.
* **Arithmetic.** Scores live in an arbitrary `Arith R` structure *without laws*, so theorems about
  which documents are returned hold for IEEE floats, including single precision rounding on
  storage. Numeric theorems instantiate it with the real numbers (exact arithmetic, `Real.log`,
  `Real.sqrt`). Theorems that need positive scores ask for the laws in `Spec.Positive` (operations on
  positive numbers give positive numbers), which rounded arithmetic meets (`rounded_positive`); C74
  bounds the rounding errors.
* **Histories.** Each index gets an operation type, a `step`, and `run`; claims about "any
  history" are inductions over operation lists against a specification that is just a function
  (`docid -> value`).

## Plan per property

| id | modelled | how proved |
|----|----------|------------|
| C01-C04 | `FieldIndex` state, index/unindex/clear/apply | refinement to `docid -> Option value`, invariant by induction |
| C05-C09 | `sort` with the three strategies, n-best insort loop included; raising comparisons | strictly sorted listing is unique; every strategy equals it. C07, C08, C09 are false of the code: refuted by witnesses, proved on the exact domain where they hold |
| C10 | `unindex_doc` on arbitrary states | case analysis, no invariant assumed |
| C11-C17 | `KeywordIndex`, `normalize` as a parameter, Set/TreeSet tag | refinement to `docid -> Option (set of words)`. C13 and C16 are false for truthy sequences without keywords: refuted, partial under "normalized non-empty" |
| C18 | heap of mutable sets, object identity of the returned set | refuted for one-word "and" (live view); proved for results that are fresh objects |
| C19-C23 | filters with an abstract `eval` outcome (true/false/raise) | induction over histories. C20, C22 are false: refuted, partial proved |
| C24 | objects with dirty flags, commit writes dirty objects only | refuted for `clearFilters`/`setExpression`; proved for histories without them |
| C25-C27 | `NBest` with parallel lists and real `bisect_left` loop | equality with stable sort + take; comparison counter |
| C28-C30 | `mass_weighted*` with the `NBest` queue | invariant of the merge loop, any arithmetic for keys, commutative semiring for values |
| C31-C33 | byte level `encode`/`decode`, regex `findall`, `str.find` | induction; prefix-freedom failure makes C33 false: refuted, exact characterisation proved |
| C34-C38 | bytes, bits, `append`, `tolist`, pickling state | bit list refinement; C35, C36, C37 false: refuted, exact characterisations |
| C39-C43 | `Lexicon` with arbitrary pipeline; adversarial counter; glob loop and a backtracking matcher, with `.`, `^` and `$` in the prefix | invariants; ordered-prefix contiguity. C43 (and C59) false for prefixes with `^` or `$` and words with newlines: refuted, partial proved |
| C44-C45 | regex scanners as functions on char lists | independent spec by maximal runs / deletion of markup |
| C46-C50 | tokenizer, index-based recursive descent with exceptions | fuel sufficiency; relational grammar; tree invariant |
| C51-C59 | `BaseIndex` over any lexicon and weighting, dict/BTree tag | refinement to `docid -> word ids`. C58 false: refuted + exact characterisation |
| C54, C55 | Okapi total length | invariant; C55 false for Okapi: refuted, proved for cosine and for Okapi up to total length |
| C60-C64, C67 | scoring formulas over the reals | inequalities; C61 false for globs, C62 false for repeated words: refuted, partial proved |
| C65 | whole stack with default pipeline | composition; refuted for characters whose lower case is not a word character |
| C66 | the same code with object identity: which mappings are results of their own and which are parts of the index (`Model/Alias`) | Okapi: always an object of its own, in any arithmetic. Cosine: the mapping of a word is handed out if its inverse document frequency is exactly 1; impossible in exact arithmetic (`e ≠ 1 + N/n`), possible in others: refuted there |
| C68 | `index_doc` with the state left behind when a tree rejects the docid (`Model/Reject`) | simulation up to empty sets; false of `wordCount()` and of text indexes: refuted, partial proved |
| C69 | the scores of parsed queries over the reals | induction over trees; the formula is a separate specification (`Spec/Scores`) |
| C70 | `Model/Txn`: a database of committed states; a transaction runs on a snapshot and is merged with the latest state object by object (BTrees three-way merge, `Length` sums) | invariants of one index state and of the evolution between two states, both kept by merging (`Proofs/Txn`); induction over the schedule; witness for the conversion to TreeSet; text index (`Model/TxnText`, trees of postings by address, dicts by content): refinement to `Model/TextIndex`, merged states fit the merged documents (`Proofs/TxnText`), lexicon merges equal serial execution, and any such state answers like a rebuilt index (`Proofs/TextSame`); keyword indexes with large sets: a weaker evolution invariant that allows set objects to be replaced, with the condition that the other side left the keyword alone (`Spec/TxnReplace`, `Proofs/TxnReplace`); a condition on the calls only implies it: a transaction leaves the set of a keyword alone unless it names a document with it, and small sets are never replaced (`Spec/TxnContend`, `Proofs/TxnContend`) |
| C71 | the same calls on objects whose counters may be missing (`Model/Legacy`) | simulation by the ordinary index, up to missing counters; counters never get lost; witness for the searches that raise |
| C72 | the text index of `Model/TxnText` once more, with the marks (`_p_changed`) of buckets, trees and counters; a commit writes marked parts, unmarked parts may be reloaded at any time (`Model/Stored`) | invariant: what is not marked is as in the database; forgetting the marks gives the other model; induction over the steps of the program |
| C73 | two histories of one class with lexicons of their own (`Model/TextIndex`) | renaming of word ids: frequencies, scores and glob lists commute with it, so both states agree on every word; congruence of query execution. False for phrases (C58) |
| C74 | the text model over an arithmetic on the reals in which every result has a relative error of at most `u` (`Spec/Rounding`); double precision with single precision storage is an instance (`Proofs/FloatArith`, exponents not limited) | the relation "equal up to the factor `(1/(1-u))^k`" through every operation, loop, union and intersection, then induction over trees |
| C75 | whole stack with the pipeline of `HTMLWordSplitter`, `CaseNormalizer`, `StopWordRemover` | composition of C45, C47 and C60; markup is specified by `Spec/Html` |
| C76 | query texts as character lists | tokens of a concatenation, then C47 and C60 |
| C77 | the text index over the reals (C69) | induction over the tree; BM25 grows with occurrences and falls with length |
| C78 | `Model/TxnTopic`: snapshots, and conflict resolution of each filter's set | the schedule theorem of C70 for pairs (filter, document); refuted for whole documents by a witness |
| C79 | `Model/SortGen`: the generator of `sort` as a state machine, with calls of `next()` and changes of the index as events; what iterating over a BTree with changed keys gives is arbitrary | induction on the events: the documents still to come, restricted to the unchanged ones, are a suffix of the sorted list; refuted in general by witnesses |
| C80 | `Model/TxnClear`: on top of the transactions of C70, which containers the index object names; `clear` gives it new ones | a schedule theorem for any kind of index to which that of C70 applies, by induction on the commits; instances for field, keyword and text indexes |
| C81 | the model of C61, C67, C69 and C76 | parse trees of combined queries (C76), scores as sums over the tree (C69) and query weights as sums over the terms (C61, C62), all over the real numbers; a witness for globs |
| C82 | `Model/Lexicon`: the three pipeline elements; `Model/QueryParser`: ignored atoms | the words by C44; histories by induction; queries by the grammar of C47; a witness for `ÿ` |
| C83 | `Model/Stack`: the parser, `executeQuery`, `terms` and `apply` once more, with the number of nested calls still possible | simulation of the functions without limit, by induction on the recursion; how many parentheses are open at a token bounds the depth; nested parentheses exceed every limit |
| C84 | `Model/QueryParser`, `Model/Lexicon`, `Model/TextIndex` | the quoted text is one token (`Tokens`), hence one atom of the grammar (C47); the words of a text cut between words are those of its parts (`Runs`); then C60; passages with `*` and `?`: the pieces pass the pipeline a second time, which splits them into the words of the text (`findall_wild`, `wild_pass`); counterexamples for one piece with `?` and for stop words with `*` |
| C85 | `Model/OkaScore`: `okascore.c` with the references held, the exception set and misuse as explicit outcomes; the calls of the C API are parameters with arbitrary outcomes | a Hoare-style postcondition for each call, loop by induction; simulation of `cScoreStep` for the objects of an index; counterexamples |
| C86 | `Model/ParserObj`: the methods of `QueryParser` on an object with the attributes `_tokens`, `_tokentypes`, `_index`, `_ignored`, lists of ignored terms on a heap, state kept when an exception is raised | every method simulates its counterpart in `Model/QueryParser` (relation: the tokens from `_index` on, the ignored terms so far in the list); lists by an invariant on the heap |
| C87 | the transactions of C70; `Spec/Serial`: the committed transactions and their calls in order | from the schedule theorem of C70: a call's effect on a document depends on that document only, so a commit has the effect of the calls on the latest state; negation by a witness (write skew) |
| C88 | the model of C61, C62, C67, C69 and C76; `Spec/Rearrange`: trees that differ in order and grouping | induction on the rearrangement: matching documents, scores (sums over the parts) and terms (a permutation) stay the same, over the real numbers; repetition from C81; a witness for globs |
| C89 | the indexes of C01, C11, C21 and C57; `Spec/Apart`: calls that do not concern a document | invariance of the parts of the state that concern the document under each call; text: matching of a tree at a document depends on its words and their ids only, and ids do not change (C39) |
| C90 | `Model/QueryParser`; `Spec/Writing`: terms, keywords, delimiters | tokens of the texts (`Tokens`), phrases of the grammar of C47 with the same meaning; a bracketed part of a phrase is a phrase, by counting brackets |
| C91 | the four indexes; `Spec/Rename`: the same calls with other docids | the specifications of C01, C05, C11, C19, C69 are functions of what each docid has; counts of documents are cardinalities of images |
| C92 | `Model/StoredSets`: the functions of `HField` and `HKeyword` with marks on changed objects; commit, cache, abort | what is not marked is as in the database, preserved by every library operation; forgetting marks and addresses gives `Model/Field` and `Model/Keyword` |
| C93 | `Model/Catalog`: two engines in one database, merged separately, aborted together; a field index and a text index | the pair of two sound engines is sound, over the disjoint union of the documents; domains agree in snapshot and latest state, so in the merged one |
| C94 | nothing new; two runs of the existing models, related by `Spec/Values` | field and keyword: from C01, C02, C05, C11, C12, transferred along the replacement; text: the two lexicons stay related (same ids for corresponding words), so both indexes receive the same ids and stay equal |
| C95 | nothing new; formulas of query texts, `Spec/Formula` | induction over the formula with C76; paired quotes and well-behaved patterns are inherited |
| C96 | `index_doc` up to the point where the pipeline raises (`Model/RejectedText`) | no function looks at the total length except to change it, so a wrong total stays wrong by the same amount; false of OkapiIndex: refuted, exact difference proved |
| C97 | nothing new | C69, C67 and the query weights of C61, C62: the inverse document frequency cancels out |
| C98 | nothing new | the pattern is one token and one piece of the splitter; then C47, C59 and C60; a word followed by `*` matches what begins with it, by induction (`globMatch_prefix`) |
| C99 | nothing new | C60, C11 and C01 say what is found, C05 how it is sorted, C25 what `NBest` keeps; the order among equal scores from the stability of C25 and the order of the items |

## Trusted base

* Lean 4.33.0 kernel; the axioms reported by `#print axioms` (at most `propext`,
  `Classical.choice`, `Quot.sound`); Mathlib as installed.
* The reading of the Python source recorded in the comments of `Verif/Model`.
* The assumed behaviour of libraries that are not part of the repository: BTrees, `Length`,
  `bisect`, `heapq`, `sorted` (stable, raises when it meets an unorderable pair), `re`, `str`.

### What is modelled, file by file

| file in /repo/src/zope/index | model | left out |
|---|---|---|
| `field/index.py` | `Model/Field`, `Model/Reject` (rejected docids), all methods; `Model/Txn` (concurrent transactions) | `family` selection |
| `field/sorting.py` | `Model/SortGen` (the generator), `Model/Field` (`sort` and the three strategies, `nsmallest` loop with `insort`) | `sort` returns all the values at once; the generator is `Model/SortGen`, where the caller's `docids` object does not change meanwhile; the float rounding of `rlen / 100 + 1` in the choice of the strategy |
| `keyword/index.py` | `Model/Keyword`, `Model/KeywordHeap` (identity of the sets), `Model/Reject`, `Model/Txn` | `family` selection |
| `topic/index.py`, `topic/filter.py` | `Model/Topic`, `Model/TopicHeap` (identity, dirty flags), `Model/TxnTopic` (transactions) | `eval` of the expression: an arbitrary outcome true, false or exception; `__repr__` |
| `nbest.py` | `Model/NBest`, with the loop of `bisect_left` | - |
| `text/setops.py` | `Model/SetOps`, `Model/Alias` (identity of the results) | - |
| `text/widcode.py` | `Model/WidCode`, bytes and `find` | - |
| `text/ricecode.py` | `Model/RiceCode` | `pickle_efficiency`, a size experiment |
| `text/lexicon.py` | `Model/Lexicon`, `Model/Txn`, `Model/Stored` | 32 bit word ids; regular expressions with metacharacters other than `.`, `^`, `$` in the glob prefix are an arbitrary matcher `odd` |
| `text/stopdict.py` | the list of stop words | - |
| `text/htmlsplitter.py` | `Model/HtmlSplitter` | - |
| `text/queryparser.py` | `Model/QueryParser`, `Model/Stack` (recursion limit), `Model/ParserObj` (the object and its attributes) | - |
| `text/parsetree.py` | `Model/ParseTree`, `Model/Stack` | `__repr__` |
| `text/baseindex.py`, `okapiindex.py`, `cosineindex.py`, `textindex.py` | `Model/TextIndex`, `Model/Reject`, `Model/Alias`, `Model/Legacy`, `Model/TxnText` (concurrent transactions), `Model/Stored` (what a commit writes) | — |
| `text/okascore.c` | `Model/TextIndex` (`cScoreStep`), `Model/OkaScore` (references, exceptions, C `int`) | module initialisation; the exact double arithmetic |
| `interfaces.py`, `*/interfaces.py` | read as statements of what is promised | - |

Of ZODB are modelled: the dirty flags of C24 and C72 (assumed: objects of BTrees and attributes of `Persistent` objects mark themselves
when changed, an item assignment of a tree also if the object is already there; a dict marks nothing), the reloaded counter of C40, and (C70, C78, `Model/Txn`, `Model/TxnText`, `Model/TxnTopic`) snapshots and the
conflict resolution of field indexes, keyword indexes, text indexes, lexicons and the filters of topic indexes, with transactions that do not change `tree_threshold` (`optimize` of the keyword index is included), and (C80, `Model/TxnClear`) the exchange of containers by `clear` in field, keyword and text indexes.  BTrees may refuse
a merge at any time in the model, so its buckets need not be modelled.  Not modelled anywhere: how objects are stored,
BTree key range limits (32/64 bit), memory limits, Python's recursion limit except in queries (C83), performance (except C27), `__repr__`.

## Axioms of each theorem

Written by `tools/gen_axioms.py` from `#print axioms` of the 388 theorems named in MANIFEST.json.

* no axioms: C26_new, C35_fails, C38_pickle.
* `propext`: C25_order_unique, C27_documented_bound_fails, C34_reject, C36_fails, C55_clear_partial, C76_quotes, C82_fails.
* `Quot.sound`, `propext`: C01_bad_query, C03_clear, C05_bad_limit, C10_never_raises, C11_operator, C13_clear, C13_fails, C14_case, C15_optimized, C16_fails, C16_lower_bound_partial, C17_apply, C17_repeat, C18_keyword_fails, C18_topic_fails, C19_contents, C20_fails, C20_reindex_partial, C20_unindex_first_partial, C21_or, C21_raises, C22_fails, C22_repeat_partial, C22_first_partial, C23_contained, C23_independent, C24_fails, C24_reload_partial, C31_negative, C32_append, C33_fails, C44_unique, C45_unique, C50_keywords, C68_field_partial, C68_field_sort_partial, C68_field_raises, C68_field_fails, C68_keyword_partial, C68_keyword_rejected, C68_keyword_fails, C68_text_local, C68_text_accepted, C70_keyword_fails, C70_keyword_stuck, C78_filters_partial, C78_abort, C78_fails, C86_ex, C92_field, C92_keyword, C92_field_durable, C92_keyword_durable, C92_field_reload, C92_keyword_reload, C92_needs_marks.
* `Classical.choice`, `Quot.sound`, `propext`: C01_range_query, C02_document_count, C02_word_count, C02_count_unique, C03_unindex, C03_unknown, C04_history_independent, C04_reindex_same, C04_commute, C05_ascending, C05_listing_unique, C05_strategies, C06_descending, C07_fails, C07_ascending_partial, C07_descending_partial, C08_fails, C08_skips_partial, C08_irrelevant_partial, C09_fails, C09_characterisation_partial, C11_and, C11_or, C12_document_count, C12_word_count, C12_has_doc, C13_unindex_partial, C13_unknown_partial, C13_raises_partial, C13_others, C15_transparent, C16_plain_partial, C18_keyword_partial, C18_keyword_same_answers, C18_topic_partial, C18_topic_same_answers, C21_and, C25_nbest_exact, C26_size, C26_pop, C26_addmany, C26_queue, C27_comparisons, C27_attained, C27_refused, C28_union_keys, C28_union_values, C29_inter_keys, C29_inter_values, C30_union_keys_perm, C30_inter_keys_perm, C30_perm, C31_round_trip, C31_too_large, C32_injective, C32_boundary, C33_no_false_negative_partial, C33_characterisation_partial, C33_small_lexicon_partial, C34_round_trip, C34_encode, C35_domain_partial, C36_characterisation_partial, C37_fails, C37_bits_partial, C38_read, C38_write, C38_outside, C39_bijection, C39_stable, C39_source, C40_injective, C40_nonzero, C40_terminates, C40_negative_counter, C41_word_count, C42_agree, C42_unknown, C43_glob_partial, C43_plain, C43_leading, C43_splitter_patterns, C43_fails, C44_process, C44_process_glob, C44_glob_free, C44_resplit, C45_process, C45_document, C45_process_glob, C45_document_glob, C45_glob_free, C46_total, C47_grammar, C47_reject, C48_shape, C48_execute, C48_execute_ok, C49_ignored, C49_all_ignored, C50_tokens, C50_token_shape, C51_documents, C51_weights, C51_okapi, C52_statistics, C53_history_independent, C53_same_answers_partial, C53_reindex, C53_cleared_partial, C53_okapi_fails, C54_total_length, C54_cleared, C55_clear_cosine, C55_okapi_fails, C55_after_partial, C56_search, C56_none, C57_boolean, C57_query, C58_characterisation_partial, C58_complete_partial, C58_small_lexicon_partial, C58_fails, C59_glob_partial, C59_plain, C59_leading, C59_fails, C60_apply, C60_searches, C60_errors, C61_bound_partial, C61_query_weight, C61_fails, C62_bound_partial, C62_query_weight, C62_fails, C63_frequency, C63_length, C63_idf, C63_ranking, C64_loops, C64_apply, C64_zero_length, C65_exact_partial, C65_found_partial, C65_fails, C66_okapi, C66_cosine_partial, C66_cosine_exact, C66_same_results, C66_cosine_fails, C67_normalized, C67_scaled, C67_cosine, C68_text_partial, C68_text_fails, C68_text_poisons, C69_okapi, C69_okapi_cleared, C69_cosine, C70_field, C70_field_answers, C70_field_alone, C70_keyword_partial, C70_text, C70_text_answers, C70_text_alone, C70_lexicon, C70_lexicon_ids, C70_lexicon_serial, C70_keyword_alone_partial, C70_lexicon_alone, C70_keyword_replaced_partial, C70_keyword_alone_replaced_partial, C70_keyword_uncontended_partial, C70_keyword_alone_uncontended_partial, C71_counters_partial, C71_upgrade, C71_cosine, C71_okapi_partial, C71_fails, C71_lexicon, C71_lexicon_same, C72_text, C72_durable, C72_reload, C72_search, C72_needs_marks, C73_same_words, C73_shared_lexicon, C73_phrase_partial, C73_phrase_small_partial, C73_apply_partial, C73_phrase_fails, C74_okapi, C74_cosine, C74_ranking, C74_slack, C74_float, C74_lengths, C75_exact, C75_outside, C76_parse, C76_apply, C77_ranking, C77_best, C78_serial_partial, C78_alone, C79_undisturbed, C79_within, C79_steady_partial, C79_steady_descending, C79_best_fixed, C79_indexed_partial, C79_fails, C80_field, C80_field_alone, C80_keyword_partial, C80_keyword_alone_partial, C80_keyword_replaced_partial, C80_keyword_alone_replaced_partial, Text.C80_text_partial, Text.C80_text_alone_partial, C81_okapi, C81_cosine, C81_between_partial, C81_fails, C82_words, C82_texts, C82_alone, C82_query, C82_single_partial, C83_parse, C83_apply, C83_flat, C83_unbounded, C84_parse, C84_found_partial, C84_exact_partial, C84_wild_partial, C84_wild_exact_partial, C84_fails, C84_stop_fails, C85_references, C85_outcome_partial, C85_scores_partial, C85_fails, C86_reuse, C86_total, C86_ignored, C86_lists, C87_field_partial, C87_keyword_partial, C87_text_partial, C87_fails, C87_keyword_replaced_partial, C87_keyword_uncontended_partial, C88_okapi, C88_cosine, C88_okapi_texts, C88_cosine_texts, C88_okapi_rounded, C88_cosine_rounded, C88_repeat_okapi, C88_repeat_partial, C88_repeat_cosine, C88_repeat_fails, C89_field, C89_keyword, C89_topic, C89_text, C90_tokens, C90_spaces, C90_margins, C90_case, C90_brackets, C90_brackets_inside, C90_and, C90_hyphen, C90_apply, C91_field, C91_field_counts, C91_sort, C91_sort_descending, C91_sort_ties, C91_keyword, C91_keyword_counts, C91_topic, C91_okapi, C91_cosine, C92_field_search, C92_keyword_search, C93_together, C93_present, C93_serial_partial, C93_fails, C94_field, C94_sort, C94_sort_descending, C94_keyword, C94_text, C94_encrypted, C95_formula, C95_implies, C95_equivalent, Text.C96_raises, Text.C96_cosine, Text.C96_new_partial, Text.C96_okapi, Text.C96_okapi_fails, C97_cosine, C97_cosine_alone, C97_okapi, C98_pattern, C98_prefix, C98_narrow, C98_found, C99_text_sorted, C99_keyword_sorted, C99_range_sorted, C99_text_best.

## Wrong programs: how far the log can be trusted

`seeded/LOG.jsonl` is written by `tools/mutate.py`. Until 17 November 08:30 UTC the driver had a flaw. When the prover process of a module
was killed (by the box, because memory was short, or by the driver above 6 GB), all theorems of that module that mention `decide` were
counted as failed. Several drivers ran at once, so such kills happened for reasons unrelated to the edit. Therefore:

* in entries from before, `failed` can contain theorems that did not really fail;
* every entry logged as caught was checked: it stays `caught` only if some theorem of the claim failed that depends on no theorem that
  mentions `decide` and is itself in the `failed` list, which a kill cannot bring about (331 of 389 entries; dependencies and names as
  of that day, so an entry about a theorem renamed or reproved since is judged by its present form);
* the other 58 are marked `unconfirmed`. 38 of them were run again with the corrected driver, as new lines, and caught; none was missed.
  The other 20 were not run again for lack of time: for these it is not known whether a theorem fails.

The corrected driver builds again after a kill. What it still has to give up (first the examples and concrete cases of the module, then
whatever mentions `decide`) rests on a separate axiom in the scratch copy, is listed as `not_decided`, and never counts as failed. If this
leaves only such theorems for a claim, the result is `undecided`. None of this concerns the theorems themselves: they are checked by `lake build`.

## Tests of the model

`tools/conformance.py` evaluates the model with Lean's interpreter and compares with what the project's own tests expect: 664 cases, all
agree. 57 are the cases of `text/tests/test_queryparser.py`, read from that file (for rejected queries only that there is an error is
compared). The others are written out by hand from `text/tests/test_lexicon.py`, `test_htmlsplitter.py`, `test_setops.py`,
`test_widcode.py`, the `NBest` tests in `tests/tests.py`, `keyword/tests.py`, `field/tests.py` and `topic/tests`, some queries also through
`search` and both forms of `apply`. Left out there are interfaces, families, persistence of old instances, locales, random orders, `None`
texts, `pop_smallest` and calls recorded by dummy filters.

112 of the cases are text indexes and the query engine: `text/README.rst` (documents 3, 6, 7 and 8 are read from it, the short ones and the
expected answers copied by hand), `test_index.py`,
`test_okapiindex.py`, `test_cosineindex.py` and `test_queryengine.py`. The arithmetic is Lean's `Float`, rounded to single precision where
the code stores a score in a tree or bucket. The scores in README.rst agree to the three or four digits printed there, with the Python
and with the C form of the Okapi loop. README.rst does not exercise cosine scores: for these the tests only bound the query weight and give
the documents found, so the cosine formula is tested less. Word characters are given for the texts of README.rst only. From `test_index.py`
the sizes, counts and answers are compared, not the contents of each word's map. Left out are instances without a length object and the
types of results. This tests one choice of `Arith`; the theorems hold for every choice that meets their hypotheses, and `Float` need not
meet them.

30 cases are from `test_ricecode.py` (lists drawn once with a fixed seed; the test's one-element list `['foo']` became `[7]`; pickle sizes left
out) and `test_parsetree.py` (dummy nodes became atoms; `__repr__`, node types and the abstract base class left out).

From `test_baseindex.py` come the cases on indexing, reindexing, unindexing and searching, run on Okapi and cosine indexes instead of a base index with
replaced methods; left out are the calls of abstract methods, the upgrades, the tests of `_add_wordinfo` and `_del_wordinfo` alone and the successful searches.

The tool fails unless Lean ends with exit code 0 and every case was evaluated. Nine expectations changed on purpose were all reported.
Not run on the model: `test_textindex.py` (dummy indexes); `test_textindexwrapper.py` only runs README.rst. One test there,
`test_apply_w_results_bogus_query_weight`, the model could not pass: it gives `apply` scores that are strings, and the branch
`except TypeError` of `apply` (textindex.py:86-89) is not modelled. These are tests of the
model, not proofs, and not part of the build: as kernel computations the parser cases
alone take more than 14 GB.
