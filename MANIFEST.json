{
 "claims": [
  {
   "property": "C01",
   "status": "proved",
   "theorems": [
    "Verif.C01_range_query",
    "Verif.C01_bad_query"
   ],
   "note": ""
  },
  {
   "property": "C02",
   "status": "proved",
   "theorems": [
    "Verif.C02_document_count",
    "Verif.C02_word_count",
    "Verif.C02_count_unique"
   ],
   "note": ""
  },
  {
   "property": "C03",
   "status": "proved",
   "theorems": [
    "Verif.C03_unindex",
    "Verif.C03_unknown",
    "Verif.C03_clear"
   ],
   "note": ""
  },
  {
   "property": "C04",
   "status": "proved",
   "theorems": [
    "Verif.C04_history_independent",
    "Verif.C04_reindex_same",
    "Verif.C04_commute"
   ],
   "note": ""
  },
  {
   "property": "C05",
   "status": "proved",
   "theorems": [
    "Verif.C05_ascending",
    "Verif.C05_listing_unique",
    "Verif.C05_bad_limit",
    "Verif.C05_strategies"
   ],
   "note": "the strategy flags are arbitrary"
  },
  {
   "property": "C06",
   "status": "proved",
   "theorems": [
    "Verif.C06_descending"
   ],
   "note": ""
  },
  {
   "property": "C07",
   "status": "partial",
   "theorems": [
    "Verif.C07_fails",
    "Verif.C07_ascending_partial",
    "Verif.C07_descending_partial"
   ],
   "note": "false of the code for descending sorts with ties; proved ascending, and descending without ties"
  },
  {
   "property": "C08",
   "status": "partial",
   "theorems": [
    "Verif.C08_fails",
    "Verif.C08_skips_partial",
    "Verif.C08_irrelevant_partial"
   ],
   "note": "false of the code: the full sort compares values with -1; proved for values orderable with ints and for the other two strategies"
  },
  {
   "property": "C09",
   "status": "partial",
   "theorems": [
    "Verif.C09_fails",
    "Verif.C09_characterisation_partial"
   ],
   "note": "false of the code for None; exact conditions proved for each strategy"
  },
  {
   "property": "C10",
   "status": "proved",
   "theorems": [
    "Verif.C10_never_raises"
   ],
   "note": ""
  },
  {
   "property": "C11",
   "status": "proved",
   "theorems": [
    "Verif.C11_and",
    "Verif.C11_or",
    "Verif.C11_operator"
   ],
   "note": ""
  },
  {
   "property": "C12",
   "status": "proved",
   "theorems": [
    "Verif.C12_document_count",
    "Verif.C12_word_count",
    "Verif.C12_has_doc"
   ],
   "note": ""
  },
  {
   "property": "C13",
   "status": "partial",
   "theorems": [
    "Verif.C13_unindex_partial",
    "Verif.C13_unknown_partial",
    "Verif.C13_clear",
    "Verif.C13_raises_partial",
    "Verif.C13_others",
    "Verif.C13_fails"
   ],
   "note": "proved for histories whose sequences are false or hold a keyword after normalization (lists and tuples); that other documents are not concerned: in every state; false after a truthy sequence without keywords, such as an iterator over nothing (C13_fails)"
  },
  {
   "property": "C14",
   "status": "proved",
   "theorems": [
    "Verif.C14_case"
   ],
   "note": ""
  },
  {
   "property": "C15",
   "status": "proved",
   "theorems": [
    "Verif.C15_transparent",
    "Verif.C15_optimized"
   ],
   "note": "for every history, including sequences that are truthy and empty"
  },
  {
   "property": "C16",
   "status": "partial",
   "theorems": [
    "Verif.C16_fails",
    "Verif.C16_plain_partial",
    "Verif.C16_lower_bound_partial"
   ],
   "note": "false of the code for truthy sequences without keywords; proved for the others, and a lower bound for all"
  },
  {
   "property": "C17",
   "status": "proved",
   "theorems": [
    "Verif.C17_apply",
    "Verif.C17_repeat"
   ],
   "note": ""
  },
  {
   "property": "C18",
   "status": "partial",
   "theorems": [
    "Verif.C18_keyword_fails",
    "Verif.C18_keyword_partial",
    "Verif.C18_keyword_same_answers",
    "Verif.C18_topic_fails",
    "Verif.C18_topic_partial",
    "Verif.C18_topic_same_answers"
   ],
   "note": "false of the code for \"and\" queries over one set; proved for all others"
  },
  {
   "property": "C19",
   "status": "proved",
   "theorems": [
    "Verif.C19_contents"
   ],
   "note": ""
  },
  {
   "property": "C20",
   "status": "partial",
   "theorems": [
    "Verif.C20_fails",
    "Verif.C20_reindex_partial",
    "Verif.C20_unindex_first_partial"
   ],
   "note": "false of the code; exact effect proved"
  },
  {
   "property": "C21",
   "status": "proved",
   "theorems": [
    "Verif.C21_or",
    "Verif.C21_and",
    "Verif.C21_raises"
   ],
   "note": ""
  },
  {
   "property": "C22",
   "status": "partial",
   "theorems": [
    "Verif.C22_fails",
    "Verif.C22_repeat_partial",
    "Verif.C22_first_partial"
   ],
   "note": "false of the code for dicts with operator \"or\"; proved for the others"
  },
  {
   "property": "C23",
   "status": "proved",
   "theorems": [
    "Verif.C23_contained",
    "Verif.C23_independent"
   ],
   "note": ""
  },
  {
   "property": "C24",
   "status": "partial",
   "theorems": [
    "Verif.C24_fails",
    "Verif.C24_reload_partial"
   ],
   "note": "false of the code for clearFilters and setExpression; proved for histories without them"
  },
  {
   "property": "C25",
   "status": "proved",
   "theorems": [
    "Verif.C25_nbest_exact",
    "Verif.C25_order_unique"
   ],
   "note": ""
  },
  {
   "property": "C26",
   "status": "proved",
   "theorems": [
    "Verif.C26_size",
    "Verif.C26_pop",
    "Verif.C26_addmany",
    "Verif.C26_queue",
    "Verif.C26_new"
   ],
   "note": ""
  },
  {
   "property": "C27",
   "status": "proved",
   "theorems": [
    "Verif.C27_comparisons",
    "Verif.C27_attained",
    "Verif.C27_refused",
    "Verif.C27_documented_bound_fails"
   ],
   "note": "the module docstring's sharper bound M*log2(N) is refuted"
  },
  {
   "property": "C28",
   "status": "proved",
   "theorems": [
    "Verif.C28_union_keys",
    "Verif.C28_union_values"
   ],
   "note": "keys for any arithmetic, values in any semiring"
  },
  {
   "property": "C29",
   "status": "proved",
   "theorems": [
    "Verif.C29_inter_keys",
    "Verif.C29_inter_values"
   ],
   "note": ""
  },
  {
   "property": "C30",
   "status": "proved",
   "theorems": [
    "Verif.C30_union_keys_perm",
    "Verif.C30_inter_keys_perm",
    "Verif.C30_perm"
   ],
   "note": ""
  },
  {
   "property": "C31",
   "status": "proved",
   "theorems": [
    "Verif.C31_round_trip",
    "Verif.C31_too_large",
    "Verif.C31_negative"
   ],
   "note": ""
  },
  {
   "property": "C32",
   "status": "proved",
   "theorems": [
    "Verif.C32_append",
    "Verif.C32_injective",
    "Verif.C32_boundary"
   ],
   "note": ""
  },
  {
   "property": "C33",
   "status": "partial",
   "theorems": [
    "Verif.C33_fails",
    "Verif.C33_no_false_negative_partial",
    "Verif.C33_characterisation_partial",
    "Verif.C33_small_lexicon_partial"
   ],
   "note": "false of the code: encode([1]) is a prefix of encode([128]). Exact characterisation of when a phrase is found, and the property itself for lexicons below 128 words"
  },
  {
   "property": "C34",
   "status": "proved",
   "theorems": [
    "Verif.C34_round_trip",
    "Verif.C34_reject",
    "Verif.C34_encode"
   ],
   "note": ""
  },
  {
   "property": "C35",
   "status": "partial",
   "theorems": [
    "Verif.C35_fails",
    "Verif.C35_domain_partial"
   ],
   "note": "false of the code for m = 0; exact domain proved"
  },
  {
   "property": "C36",
   "status": "partial",
   "theorems": [
    "Verif.C36_fails",
    "Verif.C36_characterisation_partial"
   ],
   "note": "false of the code; restored iff all differences are equal"
  },
  {
   "property": "C37",
   "status": "partial",
   "theorems": [
    "Verif.C37_fails",
    "Verif.C37_bits_partial"
   ],
   "note": "false of the code for every non-empty code"
  },
  {
   "property": "C38",
   "status": "proved",
   "theorems": [
    "Verif.C38_read",
    "Verif.C38_write",
    "Verif.C38_outside",
    "Verif.C38_pickle"
   ],
   "note": ""
  },
  {
   "property": "C39",
   "status": "proved",
   "theorems": [
    "Verif.C39_bijection",
    "Verif.C39_stable",
    "Verif.C39_source"
   ],
   "note": "the counter may be reloaded with any non-negative value"
  },
  {
   "property": "C40",
   "status": "proved",
   "theorems": [
    "Verif.C40_injective",
    "Verif.C40_nonzero",
    "Verif.C40_terminates",
    "Verif.C40_negative_counter"
   ],
   "note": "C40_negative_counter shows that the hypothesis on the counter is needed"
  },
  {
   "property": "C41",
   "status": "proved",
   "theorems": [
    "Verif.C41_word_count"
   ],
   "note": ""
  },
  {
   "property": "C42",
   "status": "proved",
   "theorems": [
    "Verif.C42_agree",
    "Verif.C42_unknown"
   ],
   "note": ""
  },
  {
   "property": "C43",
   "status": "partial",
   "theorems": [
    "Verif.C43_glob_partial",
    "Verif.C43_plain",
    "Verif.C43_leading",
    "Verif.C43_splitter_patterns",
    "Verif.C43_fails"
   ],
   "note": "the prefix goes into the regular expression unescaped and . does not match a newline: false for prefixes with ^ or $ and for words with newlines (C43_fails); proved for prefixes without metacharacters other than . and words without newlines, which is what the splitters of the package produce (C43_splitter_patterns); ^, $ and . in a prefix are modelled, what re makes of the other metacharacters is a parameter"
  },
  {
   "property": "C44",
   "status": "proved",
   "theorems": [
    "Verif.C44_process",
    "Verif.C44_unique",
    "Verif.C44_process_glob",
    "Verif.C44_glob_free",
    "Verif.C44_resplit"
   ],
   "note": ""
  },
  {
   "property": "C45",
   "status": "proved",
   "theorems": [
    "Verif.C45_process",
    "Verif.C45_unique",
    "Verif.C45_document",
    "Verif.C45_process_glob",
    "Verif.C45_document_glob",
    "Verif.C45_glob_free"
   ],
   "note": ""
  },
  {
   "property": "C46",
   "status": "proved",
   "theorems": [
    "Verif.C46_total"
   ],
   "note": "on an unlimited stack; C83 is about the recursion limit of Python"
  },
  {
   "property": "C47",
   "status": "proved",
   "theorems": [
    "Verif.C47_grammar",
    "Verif.C47_reject"
   ],
   "note": ""
  },
  {
   "property": "C48",
   "status": "proved",
   "theorems": [
    "Verif.C48_shape",
    "Verif.C48_execute",
    "Verif.C48_execute_ok"
   ],
   "note": ""
  },
  {
   "property": "C49",
   "status": "proved",
   "theorems": [
    "Verif.C49_ignored",
    "Verif.C49_all_ignored"
   ],
   "note": ""
  },
  {
   "property": "C50",
   "status": "proved",
   "theorems": [
    "Verif.C50_tokens",
    "Verif.C50_token_shape",
    "Verif.C50_keywords"
   ],
   "note": ""
  },
  {
   "property": "C51",
   "status": "proved",
   "theorems": [
    "Verif.C51_documents",
    "Verif.C51_weights",
    "Verif.C51_okapi"
   ],
   "note": "for any class whose _get_frequencies weighs exactly the words of the text, and word ids below 2^28"
  },
  {
   "property": "C52",
   "status": "proved",
   "theorems": [
    "Verif.C52_statistics"
   ],
   "note": ""
  },
  {
   "property": "C53",
   "status": "partial",
   "theorems": [
    "Verif.C53_history_independent",
    "Verif.C53_same_answers_partial",
    "Verif.C53_reindex",
    "Verif.C53_cleared_partial",
    "Verif.C53_okapi_fails"
   ],
   "note": "content: proved up to single precision (the container of a word, dict or tree, can differ); answers and scores: proved for CosineIndex, for OkapiIndex without clear() and false with it (C53_okapi_fails), where the number of words removed by clear() matters, and nothing else (C53_cleared_partial)"
  },
  {
   "property": "C54",
   "status": "proved",
   "theorems": [
    "Verif.C54_total_length",
    "Verif.C54_cleared"
   ],
   "note": ""
  },
  {
   "property": "C55",
   "status": "partial",
   "theorems": [
    "Verif.C55_clear_cosine",
    "Verif.C55_clear_partial",
    "Verif.C55_okapi_fails",
    "Verif.C55_after_partial"
   ],
   "note": "holds for CosineIndex; false for OkapiIndex, whose total document length is not reset (C55_okapi_fails); C55_after_partial: nothing else differs from a new index in all later calls"
  },
  {
   "property": "C56",
   "status": "proved",
   "theorems": [
    "Verif.C56_search",
    "Verif.C56_none"
   ],
   "note": ""
  },
  {
   "property": "C57",
   "status": "proved",
   "theorems": [
    "Verif.C57_boolean",
    "Verif.C57_query"
   ],
   "note": "C57_boolean is for any index and any parsed shape of tree; C57_query for queries against a text index, with the glob pipeline condition of the default pipeline (globPipeline_default)"
  },
  {
   "property": "C58",
   "status": "partial",
   "theorems": [
    "Verif.C58_characterisation_partial",
    "Verif.C58_complete_partial",
    "Verif.C58_small_lexicon_partial",
    "Verif.C58_fails"
   ],
   "note": "false as stated (C58_fails): codes of word ids can be prefixes of others; proved: complete always, exact characterisation, exact while word ids are below 128"
  },
  {
   "property": "C59",
   "status": "partial",
   "theorems": [
    "Verif.C59_glob_partial",
    "Verif.C59_plain",
    "Verif.C59_leading",
    "Verif.C59_fails"
   ],
   "note": "as C43: false for prefixes with ^ or $ and words with newlines (C59_fails), proved for the others"
  },
  {
   "property": "C60",
   "status": "proved",
   "theorems": [
    "Verif.C60_apply",
    "Verif.C60_searches",
    "Verif.C60_errors"
   ],
   "note": "C60_errors: for all pipelines and patterns; C60_apply: with the pipelines of the package only ParseError is left, and the documents found are exact"
  },
  {
   "property": "C61",
   "status": "partial",
   "theorems": [
    "Verif.C61_bound_partial",
    "Verif.C61_query_weight",
    "Verif.C61_fails"
   ],
   "note": "holds, strictly, for queries without globs outside negated parts; false with globs (C61_fails), which query_weight treats as plain words"
  },
  {
   "property": "C62",
   "status": "partial",
   "theorems": [
    "Verif.C62_bound_partial",
    "Verif.C62_query_weight",
    "Verif.C62_fails"
   ],
   "note": "holds for queries without globs and without repeated words; false for repeated words (C62_fails)"
  },
  {
   "property": "C63",
   "status": "proved",
   "theorems": [
    "Verif.C63_frequency",
    "Verif.C63_length",
    "Verif.C63_idf",
    "Verif.C63_ranking"
   ],
   "note": ""
  },
  {
   "property": "C64",
   "status": "proved",
   "theorems": [
    "Verif.C64_loops",
    "Verif.C64_apply",
    "Verif.C64_zero_length"
   ],
   "note": "C64_zero_length shows that the agreement is only about states an index can get into"
  },
  {
   "property": "C65",
   "status": "partial",
   "theorems": [
    "Verif.C65_exact_partial",
    "Verif.C65_found_partial",
    "Verif.C65_fails"
   ],
   "note": "holds when the lower-case word consists of word characters and is its own lower case; false for 'İ' (U+0130), whose lower case has a character that \\w does not match"
  },
  {
   "property": "C66",
   "status": "partial",
   "theorems": [
    "Verif.C66_okapi",
    "Verif.C66_cosine_partial",
    "Verif.C66_cosine_exact",
    "Verif.C66_same_results",
    "Verif.C66_cosine_fails"
   ],
   "note": "holds for OkapiIndex in any arithmetic and for CosineIndex in exact arithmetic; false for CosineIndex in an arithmetic where the inverse document frequency of a word can be 1"
  },
  {
   "property": "C67",
   "status": "proved",
   "theorems": [
    "Verif.C67_normalized",
    "Verif.C67_scaled",
    "Verif.C67_cosine"
   ],
   "note": "strictly between 0 and 1"
  },
  {
   "property": "C68",
   "status": "partial",
   "theorems": [
    "Verif.C68_field_partial",
    "Verif.C68_field_sort_partial",
    "Verif.C68_field_raises",
    "Verif.C68_field_fails",
    "Verif.C68_keyword_partial",
    "Verif.C68_keyword_rejected",
    "Verif.C68_keyword_fails",
    "Verif.C68_text_partial",
    "Verif.C68_text_local",
    "Verif.C68_text_accepted",
    "Verif.C68_text_fails",
    "Verif.C68_text_poisons"
   ],
   "note": "holds for field and keyword indexes except wordCount(), which then counts values or keywords of no document; text indexes: holds except for searches of words of the rejected text, which raise KeyError afterwards, and later index_doc calls with these words, which may raise"
  },
  {
   "property": "C69",
   "status": "proved",
   "theorems": [
    "Verif.C69_okapi",
    "Verif.C69_okapi_cleared",
    "Verif.C69_cosine"
   ],
   "note": "after clear() the formula holds with another mean length (C55)"
  },
  {
   "property": "C70",
   "status": "partial",
   "theorems": [
    "Verif.C70_field",
    "Verif.C70_field_answers",
    "Verif.C70_field_alone",
    "Verif.C70_keyword_partial",
    "Verif.C70_keyword_fails",
    "Verif.C70_text",
    "Verif.C70_text_answers",
    "Verif.C70_text_alone",
    "Verif.C70_lexicon",
    "Verif.C70_lexicon_ids",
    "Verif.C70_lexicon_serial",
    "Verif.C70_keyword_alone_partial",
    "Verif.C70_keyword_stuck",
    "Verif.C70_lexicon_alone",
    "Verif.C70_keyword_replaced_partial",
    "Verif.C70_keyword_alone_replaced_partial",
    "Verif.C70_keyword_uncontended_partial",
    "Verif.C70_keyword_alone_uncontended_partial"
   ],
   "note": "proved for field indexes, text indexes with their lexicons and lexicons (transactions without clear()); false of keyword indexes: the conversion of a set of 64 documents to a TreeSet loses concurrent changes, so a removed document may still be found, and a new document may not be found and can then not be removed (C70_keyword_stuck); proved for keyword indexes while no keyword is given to 64 documents, and, for any sizes and with optimize(), while no transaction replaces the set object of a keyword when another changes its documents (C70_keyword_replaced_partial); this is so when each keyword is given to fewer than 64 documents or overlapping transactions do not both touch documents with it (C70_keyword_uncontended_partial)"
  },
  {
   "property": "C71",
   "status": "partial",
   "theorems": [
    "Verif.C71_counters_partial",
    "Verif.C71_upgrade",
    "Verif.C71_cosine",
    "Verif.C71_okapi_partial",
    "Verif.C71_fails",
    "Verif.C71_lexicon",
    "Verif.C71_lexicon_same"
   ],
   "note": "all calls work and rebuilt counters are exact, but until the next new document (or removal, or clear) documentCount(), wordCount() and Okapi searches raise NotImplementedError"
  },
  {
   "property": "C72",
   "status": "proved",
   "theorems": [
    "Verif.C72_text",
    "Verif.C72_durable",
    "Verif.C72_reload",
    "Verif.C72_search",
    "Verif.C72_needs_marks"
   ],
   "note": "every change is marked, so a commit writes all of it; it depends on BTrees marking a bucket when the object assigned is already there, which C72_needs_marks shows to be necessary"
  },
  {
   "property": "C73",
   "status": "partial",
   "theorems": [
    "Verif.C73_same_words",
    "Verif.C73_shared_lexicon",
    "Verif.C73_phrase_partial",
    "Verif.C73_phrase_small_partial",
    "Verif.C73_apply_partial",
    "Verif.C73_phrase_fails"
   ],
   "note": "proved for everything but phrases; with phrases it is false (C73_phrase_fails, a consequence of C58) and proved for phrases found in the same documents, in particular with fewer than 128 words"
  },
  {
   "property": "C74",
   "status": "proved",
   "theorems": [
    "Verif.C74_okapi",
    "Verif.C74_cosine",
    "Verif.C74_ranking",
    "Verif.C74_slack",
    "Verif.C74_float",
    "Verif.C74_lengths"
   ],
   "note": "overflow and underflow are excluded by the hypothesis Rounded; comparison with 0 and 1 is exact; lengths of documents fit in the stored precision"
  },
  {
   "property": "C75",
   "status": "proved",
   "theorems": [
    "Verif.C75_exact",
    "Verif.C75_outside"
   ],
   "note": "for queries whose lower case consists of word characters, is its own lower case and is no stop word, as the statement says"
  },
  {
   "property": "C76",
   "status": "proved",
   "theorems": [
    "Verif.C76_parse",
    "Verif.C76_apply",
    "Verif.C76_quotes"
   ],
   "note": "for texts whose double quotes are paired, as the statement says; C76_quotes shows that this is needed"
  },
  {
   "property": "C77",
   "status": "proved",
   "theorems": [
    "Verif.C77_ranking",
    "Verif.C77_best"
   ],
   "note": "exact real arithmetic; the words asked for by parts that are not negated"
  },
  {
   "property": "C78",
   "status": "partial",
   "theorems": [
    "Verif.C78_filters_partial",
    "Verif.C78_serial_partial",
    "Verif.C78_alone",
    "Verif.C78_abort",
    "Verif.C78_fails"
   ],
   "note": "proved for each filter and document, and for transactions that name documents no overlapping commit changed; false in general (C78_fails): overlapping transactions that index and unindex the same document, changing different filters, both commit and leave it in a mixture of filters"
  },
  {
   "property": "C79",
   "status": "partial",
   "theorems": [
    "Verif.C79_undisturbed",
    "Verif.C79_within",
    "Verif.C79_steady_partial",
    "Verif.C79_steady_descending",
    "Verif.C79_best_fixed",
    "Verif.C79_indexed_partial",
    "Verif.C79_fails"
   ],
   "note": "proved: laziness, bounds, order and completeness of unchanged documents (for the walk through the index, while the set of values stays the same), and everything for the sort through a list without clear(); false in general (C79_fails): a docid unindexed meanwhile is yielded by the n-best strategy, docids of a cleared index by the others, and the walk through the index may yield a docid twice"
  },
  {
   "property": "C80",
   "status": "partial",
   "theorems": [
    "Verif.C80_field",
    "Verif.C80_field_alone",
    "Verif.C80_keyword_partial",
    "Verif.C80_keyword_alone_partial",
    "Verif.C80_keyword_replaced_partial",
    "Verif.C80_keyword_alone_replaced_partial",
    "Verif.Text.C80_text_partial",
    "Verif.Text.C80_text_alone_partial"
   ],
   "note": "proved for field indexes; for keyword indexes while no keyword is given to 64 documents, or, for any sizes and with optimize(), while no transaction replaces the set object of a keyword when another changes its documents (otherwise false, see C70); for text indexes with CosineIndex (OkapiIndex keeps its total document length when cleared, see C55)"
  },
  {
   "property": "C81",
   "status": "partial",
   "theorems": [
    "Verif.C81_okapi",
    "Verif.C81_cosine",
    "Verif.C81_between_partial",
    "Verif.C81_fails"
   ],
   "note": "exact formulas proved for all queries and both kinds of index; that the score lies between those of the two parts is proved for queries without globs (OkapiIndex) and false with globs (C81_fails), whose query_weight is computed as if the pattern were a word"
  },
  {
   "property": "C82",
   "status": "partial",
   "theorems": [
    "Verif.C82_words",
    "Verif.C82_texts",
    "Verif.C82_alone",
    "Verif.C82_query",
    "Verif.C82_single_partial",
    "Verif.C82_fails"
   ],
   "note": "all proved, except that StopWordAndSingleCharRemover removes only single characters before U+00FF (C82_fails)"
  },
  {
   "property": "C83",
   "status": "proved",
   "theorems": [
    "Verif.C83_parse",
    "Verif.C83_apply",
    "Verif.C83_flat",
    "Verif.C83_unbounded"
   ],
   "note": "four nested calls for each open parenthesis and a fixed number suffice; C83_unbounded: no limit suffices for all queries, and what is raised then is RecursionError, not ParseError"
  },
  {
   "property": "C84",
   "status": "partial",
   "theorems": [
    "Verif.C84_parse",
    "Verif.C84_found_partial",
    "Verif.C84_exact_partial",
    "Verif.C84_wild_partial",
    "Verif.C84_wild_exact_partial",
    "Verif.C84_fails",
    "Verif.C84_stop_fails"
   ],
   "note": "one term: proved for all texts and lexicons; found: proved for passages whose words have a regular lower case, without * and ? or of at least two pieces (* and ? are then no wildcards), false for \"dog?\" (C84_fails) and for stop words with * (C84_stop_fails); nothing else found: while fewer than 128 words have ids, false otherwise (C58_fails)"
  },
  {
   "property": "C85",
   "status": "partial",
   "theorems": [
    "Verif.C85_references",
    "Verif.C85_outcome_partial",
    "Verif.C85_scores_partial",
    "Verif.C85_fails"
   ],
   "note": "references: proved for all arguments and outcomes; None with an exception set (SystemError) is possible if a frequency or length is no number, otherwise excluded; scores: proved for fewer than 2^31 documents, the length is converted to a C int (C85_fails)"
  },
  {
   "property": "C86",
   "status": "proved",
   "theorems": [
    "Verif.C86_reuse",
    "Verif.C86_total",
    "Verif.C86_ignored",
    "Verif.C86_ex",
    "Verif.C86_lists"
   ],
   "note": "attributes of the object and its lists are explicit state, kept when an exception is raised; simulation with the parser of C46-C50"
  },
  {
   "property": "C87",
   "status": "partial",
   "theorems": [
    "Verif.C87_field_partial",
    "Verif.C87_keyword_partial",
    "Verif.C87_text_partial",
    "Verif.C87_fails",
    "Verif.C87_keyword_replaced_partial",
    "Verif.C87_keyword_uncontended_partial"
   ],
   "note": "proved for transactions that name no document changed by others while they ran (keyword indexes: while no keyword is given to 64 documents, see C70); false in general (C87_fails): a call that finds a document up to date writes nothing, so two transactions that set the same documents may both commit and leave a mixture"
  },
  {
   "property": "C88",
   "status": "partial",
   "theorems": [
    "Verif.C88_okapi",
    "Verif.C88_cosine",
    "Verif.C88_okapi_texts",
    "Verif.C88_cosine_texts",
    "Verif.C88_okapi_rounded",
    "Verif.C88_cosine_rounded",
    "Verif.C88_repeat_okapi",
    "Verif.C88_repeat_partial",
    "Verif.C88_repeat_cosine",
    "Verif.C88_repeat_fails"
   ],
   "note": "exact real arithmetic, and with rounding up to the factor of C74; order and grouping: proved for both kinds and all trees, brackets in an AND only if they hold a part that is neither negated nor ignored; repetition: proved for OkapiIndex and queries without globs, with the factor for all other cases; false with globs (C88_repeat_fails) and for CosineIndex (factor sqrt 2, C88_repeat_cosine)"
  },
  {
   "property": "C89",
   "status": "proved",
   "theorems": [
    "Verif.C89_field",
    "Verif.C89_keyword",
    "Verif.C89_topic",
    "Verif.C89_text"
   ],
   "note": "keyword and topic indexes: in every state; text indexes: any arithmetic in which scores stay positive"
  },
  {
   "property": "C90",
   "status": "proved",
   "theorems": [
    "Verif.C90_tokens",
    "Verif.C90_spaces",
    "Verif.C90_margins",
    "Verif.C90_case",
    "Verif.C90_brackets",
    "Verif.C90_brackets_inside",
    "Verif.C90_and",
    "Verif.C90_hyphen",
    "Verif.C90_apply"
   ],
   "note": "equal trees (and ignored terms) for every way of looking up terms; apply in every state of every index"
  },
  {
   "property": "C91",
   "status": "proved",
   "theorems": [
    "Verif.C91_field",
    "Verif.C91_field_counts",
    "Verif.C91_sort",
    "Verif.C91_sort_descending",
    "Verif.C91_sort_ties",
    "Verif.C91_keyword",
    "Verif.C91_keyword_counts",
    "Verif.C91_topic",
    "Verif.C91_okapi",
    "Verif.C91_cosine"
   ],
   "note": "text scores over the real numbers; C91_sort_ties shows that sorting needs names in the same order"
  },
  {
   "property": "C92",
   "status": "proved",
   "theorems": [
    "Verif.C92_field",
    "Verif.C92_keyword",
    "Verif.C92_field_durable",
    "Verif.C92_keyword_durable",
    "Verif.C92_field_reload",
    "Verif.C92_keyword_reload",
    "Verif.C92_field_search",
    "Verif.C92_keyword_search",
    "Verif.C92_needs_marks"
   ],
   "note": "C92_needs_marks: not so with sets that do not mark themselves; topic indexes: see C24"
  },
  {
   "property": "C93",
   "status": "partial",
   "theorems": [
    "Verif.C93_together",
    "Verif.C93_present",
    "Verif.C93_serial_partial",
    "Verif.C93_fails"
   ],
   "note": "documents are in both indexes or in neither, proved in full; that value and text were given by the same call is false (C93_fails: two overlapping transactions, one changes only the value, the other only the text, both commit) and proved for transactions that name no document changed by others meanwhile"
  },
  {
   "property": "C94",
   "status": "proved",
   "theorems": [
    "Verif.C94_field",
    "Verif.C94_sort",
    "Verif.C94_sort_descending",
    "Verif.C94_keyword",
    "Verif.C94_text",
    "Verif.C94_encrypted"
   ],
   "note": "C94_text: searches for words and phrases, query weights and parsed queries without patterns; not through the parser, because terms of a query pass the pipeline twice (see C65)"
  },
  {
   "property": "C95",
   "status": "proved",
   "theorems": [
    "Verif.C95_formula",
    "Verif.C95_implies",
    "Verif.C95_equivalent"
   ],
   "note": "for queries with paired double quotes that are answered with documents, not with None; how deeply a formula can be nested is C83"
  },
  {
   "property": "C96",
   "status": "partial",
   "theorems": [
    "Verif.Text.C96_raises",
    "Verif.Text.C96_cosine",
    "Verif.Text.C96_new_partial",
    "Verif.Text.C96_okapi",
    "Verif.Text.C96_okapi_fails"
   ],
   "note": "proved for CosineIndex, and for OkapiIndex if no rejected text was for an indexed document; false of OkapiIndex otherwise: the old length has already been taken from the total length (okapiindex.py:246), which no later call makes up for. C96_okapi says exactly what remains"
  },
  {
   "property": "C97",
   "status": "proved",
   "theorems": [
    "Verif.C97_cosine",
    "Verif.C97_cosine_alone",
    "Verif.C97_okapi"
   ],
   "note": "exact real arithmetic"
  },
  {
   "property": "C98",
   "status": "proved",
   "theorems": [
    "Verif.C98_pattern",
    "Verif.C98_prefix",
    "Verif.C98_narrow",
    "Verif.C98_found"
   ],
   "note": "what the patterns find is stated with the lower case of the pattern and of the words; C98_narrow and C98_found suppose that the lower case of the beginning is the beginning of the lower case (not so for a Greek sigma at its end, which str.lower() treats as the end of a word)"
  },
  {
   "property": "C99",
   "status": "proved",
   "theorems": [
    "Verif.C99_text_sorted",
    "Verif.C99_keyword_sorted",
    "Verif.C99_range_sorted",
    "Verif.C99_text_best"
   ],
   "note": "sorts in ascending order (descending ones: C06); values comparable with each other and with -1, as in C05"
  }
 ]
}