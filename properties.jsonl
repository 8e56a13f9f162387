{"id": "C01", "title": "Field range query is exact", "statement": "After any sequence of index_doc, unindex_doc and clear on a FieldIndex, apply((lo, hi)) returns exactly the docids whose most recently indexed value v (not since unindexed or cleared) satisfies lo <= v <= hi, where None for a bound means unbounded; a query that is not a 2-tuple raises TypeError.", "quantifier": "all call histories, all value orders, all bounds", "why_tests_cant": "a test replays a few histories; the claim ranges over every finite sequence of calls", "anchors": ["src/zope/index/field/index.py:FieldIndex.apply", "src/zope/index/field/index.py:FieldIndex.index_doc", "src/zope/index/field/index.py:FieldIndex.unindex_doc"]}
{"id": "C02", "title": "Field statistics are exact", "statement": "After any history, documentCount() is the number of docids currently indexed and wordCount() is the number of distinct values currently held by at least one docid.", "quantifier": "all call histories", "why_tests_cant": "a test replays a few histories; the claim ranges over every finite sequence of calls", "anchors": ["src/zope/index/field/index.py:FieldIndex.documentCount", "src/zope/index/field/index.py:FieldIndex.wordCount"]}
{"id": "C03", "title": "Field unindex and clear leave nothing behind", "statement": "In any reachable state unindex_doc(d) removes d from every query answer and changes nothing about other docids; unindexing an unknown docid changes nothing; after clear() the index answers exactly like a new one.", "quantifier": "all reachable states, all docids", "why_tests_cant": "a test replays a few histories; the claim ranges over every finite sequence of calls", "anchors": ["src/zope/index/field/index.py:FieldIndex.unindex_doc", "src/zope/index/field/index.py:FieldIndex.clear", "src/zope/index/interfaces.py:IInjection.unindex_doc"]}
{"id": "C04", "title": "Field index is history independent", "statement": "Two histories that leave the same docid -> value assignment leave indistinguishable indexes (every query, statistic and sort agrees); in particular reindexing with the same value is a no-op and operations on distinct docids commute.", "quantifier": "all pairs of histories", "why_tests_cant": "pairs of histories with equal final assignment form an infinite family", "anchors": ["src/zope/index/field/index.py:FieldIndex.index_doc"]}
{"id": "C05", "title": "Ascending sort is correct under every strategy", "statement": "When every comparison the sort makes is between mutually orderable values, sort(docids, limit=n) yields exactly the first n (all, if n is None) of the indexed docids among docids, ordered by (value, docid), without duplicates, whichever of the n-best, lazy or full-sort strategies is taken.", "quantifier": "all reachable states, docid collections, limits and strategy choices", "why_tests_cant": "the strategy depends on sizes, so tests exercise only a few size combinations", "anchors": ["src/zope/index/field/sorting.py:SortingIndexMixin.sort"]}
{"id": "C06", "title": "Descending sort is correct under every strategy", "statement": "Under the same condition, sort(docids, reverse=True, limit=n) yields min(n, k) distinct indexed docids of docids (k of them are indexed) in non-increasing value order, and every docid left out has a value <= every value yielded.", "quantifier": "all reachable states, docid collections, limits and strategy choices", "why_tests_cant": "as C05", "anchors": ["src/zope/index/field/sorting.py:SortingIndexMixin.sort"]}
{"id": "C07", "title": "A limited sort is a prefix of the unlimited sort", "statement": "sort(docids, reverse, limit=n) equals the first n elements of sort(docids, reverse).", "quantifier": "all reachable states, docid collections, limits, both directions", "why_tests_cant": "ties between equal values at the cut are the case tests miss", "anchors": ["src/zope/index/field/sorting.py:SortingIndexMixin.sort", "src/zope/index/interfaces.py:IIndexSort.sort"]}
{"id": "C08", "title": "Sorting skips unindexed docids", "statement": "sort never fails because some of the docids are not indexed: they are skipped and the rest is sorted.", "quantifier": "all reachable states, value types and docid collections", "why_tests_cant": "the failure depends on value type and on which strategy the sizes select", "anchors": ["src/zope/index/field/sorting.py:SortingIndexMixin.sort", "src/zope/index/interfaces.py:IIndexSort.sort"]}
{"id": "C09", "title": "Every value a field index accepts can be sorted", "statement": "If index_doc accepted the values (including None, which is documented as a valid value), sort on them does not raise.", "quantifier": "all reachable states containing None values", "why_tests_cant": "depends on the combination of values and on the strategy", "anchors": ["src/zope/index/field/sorting.py:SortingIndexMixin.sort", "src/zope/index/field/index.py:FieldIndex.index_doc"]}
{"id": "C10", "title": "Field unindex never raises, even on a damaged index", "statement": "For every internal state whatsoever, including ones where the forward and reverse maps disagree, unindex_doc(d) does not raise, and afterwards d is not indexed (it does not appear in the reverse map).", "quantifier": "all states, reachable or not, all docids", "why_tests_cant": "damaged states are unbounded in shape", "anchors": ["src/zope/index/field/index.py:FieldIndex.unindex_doc"]}
{"id": "C11", "title": "Keyword and/or search is exact", "statement": "After any history of index_doc (with lists or tuples of keywords, or anything that is false or holds a keyword after normalization; see C16 for other iterables), unindex_doc, optimize, threshold changes and clear on a KeywordIndex, search(words, \"and\") returns the docids carrying every (normalized) query word and search(words, \"or\") those carrying at least one; an empty query returns no docid; any other operator raises TypeError.", "quantifier": "all histories, all queries", "why_tests_cant": "a test replays a few histories; the claim ranges over every finite sequence of calls", "anchors": ["src/zope/index/keyword/index.py:KeywordIndex.search", "src/zope/index/keyword/index.py:KeywordIndex.index_doc"]}
{"id": "C12", "title": "Keyword statistics are exact", "statement": "After any such history documentCount() is the number of docids with a non-empty keyword set, wordCount() the number of keywords carried by at least one of them, and has_doc(d) tells whether d is one of them.", "quantifier": "all histories", "why_tests_cant": "a test replays a few histories; the claim ranges over every finite sequence of calls", "anchors": ["src/zope/index/keyword/index.py:KeywordIndex.documentCount", "src/zope/index/keyword/index.py:KeywordIndex.wordCount", "src/zope/index/keyword/index.py:KeywordIndex.has_doc"]}
{"id": "C13", "title": "Keyword unindexing", "statement": "unindex_doc(d), or index_doc(d, []), removes d from every search answer and changes nothing for other docids, is a no-op if d is not indexed, and never raises; clear() makes the index like new; index_doc with a str raises TypeError and changes nothing.", "quantifier": "all reachable states", "why_tests_cant": "a test replays a few histories; the claim ranges over every finite sequence of calls", "anchors": ["src/zope/index/keyword/index.py:KeywordIndex.unindex_doc", "src/zope/index/keyword/index.py:KeywordIndex.index_doc"]}
{"id": "C14", "title": "Case-insensitive keyword index", "statement": "A CaseInsensitiveKeywordIndex answers every search the same for two queries, and for two index histories, that differ only in the case of keywords.", "quantifier": "all histories and queries that agree up to lower()", "why_tests_cant": "all case variants of all keywords", "anchors": ["src/zope/index/keyword/index.py:CaseInsensitiveKeywordIndex.normalize"]}
{"id": "C15", "title": "tree_threshold and optimize are transparent", "statement": "The value of tree_threshold at any time and calls to optimize() never change any search answer or statistic; after optimize() each keyword is stored in a TreeSet iff it has at least tree_threshold docids.", "quantifier": "all histories with threshold changes", "why_tests_cant": "a test replays a few histories; the claim ranges over every finite sequence of calls", "anchors": ["src/zope/index/keyword/index.py:KeywordIndex.optimize", "src/zope/index/keyword/index.py:KeywordIndex._insert_forward"]}
{"id": "C16", "title": "documentCount stays right for every iterable of keywords", "statement": "For every iterable passed as seq (not only lists and tuples) and every normalize override, index_doc keeps documentCount() equal to the number of docids that has_doc() accepts, and forward and reverse views in agreement.", "quantifier": "all histories whose sequences may be empty but truthy (iterators) or be normalized to nothing", "why_tests_cant": "needs an iterable that is truthy but yields nothing", "anchors": ["src/zope/index/keyword/index.py:KeywordIndex.index_doc", "src/zope/index/keyword/index.py:KeywordIndex._insert_reverse"]}
{"id": "C17", "title": "Keyword apply and search agree", "statement": "apply(q) equals search(q, \"and\") for a non-dict q, and search(d[\"query\"], d.get(\"operator\", \"and\")) for a dict d; apply never modifies the dict, so repeating it gives the same answer.", "quantifier": "all states and queries", "why_tests_cant": "a test replays a few histories; the claim ranges over every finite sequence of calls", "anchors": ["src/zope/index/keyword/index.py:KeywordIndex.apply"]}
{"id": "C18", "title": "Search results are snapshots", "statement": "The set returned by a KeywordIndex or TopicIndex search does not change when the index is modified later, and modifying it does not change the index.", "quantifier": "all states, queries and later histories", "why_tests_cant": "aliasing shows only for particular query shapes followed by particular updates", "anchors": ["src/zope/index/keyword/index.py:KeywordIndex.search", "src/zope/index/topic/index.py:TopicIndex.search"]}
{"id": "C19", "title": "Filter contents after any history", "statement": "After any history, a topic filter given by a Python expression holds docid d iff some index_doc(d, obj) with a matching obj happened since the filter was created, and neither unindex_doc(d) nor a clear of the filter happened after it.", "quantifier": "all histories, all expressions", "why_tests_cant": "a test replays a few histories; the claim ranges over every finite sequence of calls", "anchors": ["src/zope/index/topic/filter.py:PythonFilteredSet.index_doc", "src/zope/index/topic/filter.py:FilteredSetBase.unindex_doc"]}
{"id": "C20", "title": "Reindexing a document in a topic index", "statement": "index_doc is also the way to reindex (IInjection): after index_doc(d, obj), a filter holds d iff obj matches the filter now.", "quantifier": "all histories", "why_tests_cant": "needs an object that stops matching", "anchors": ["src/zope/index/topic/filter.py:PythonFilteredSet.index_doc", "src/zope/index/interfaces.py:IInjection.index_doc"]}
{"id": "C21", "title": "Topic and/or search is exact", "statement": "search(ids, \"or\") returns the union and search(ids, \"and\") the intersection of the docid sets of those filters in ids that are registered; unregistered ids are ignored; if none is registered the answer is empty; other operators, and queries that are not str/list/tuple, raise TypeError.", "quantifier": "all states and queries", "why_tests_cant": "a test replays a few histories; the claim ranges over every finite sequence of calls", "anchors": ["src/zope/index/topic/index.py:TopicIndex.search"]}
{"id": "C22", "title": "Applying a topic query twice gives the same answer", "statement": "TopicIndex.apply(q) does not modify q, so applying the same query object again to an unchanged index returns the same answer.", "quantifier": "all states, all query objects", "why_tests_cant": "needs the same dict object to be reused", "anchors": ["src/zope/index/topic/index.py:TopicIndex.apply"]}
{"id": "C23", "title": "Filter errors are contained", "statement": "If evaluating the Python expression of a filter raises, that filter treats the document as non-matching, no exception escapes index_doc, and every other filter is updated as if the failing one did not exist.", "quantifier": "all sets of filters and evaluation outcomes", "why_tests_cant": "all combinations of failing filters", "anchors": ["src/zope/index/topic/filter.py:PythonFilteredSet.index_doc", "src/zope/index/topic/index.py:TopicIndex.index_doc"]}
{"id": "C24", "title": "Topic index changes survive commit and reload", "statement": "After any sequence of calls followed by a transaction commit, a freshly loaded index answers like the one that was committed.", "quantifier": "all histories of calls and commits", "why_tests_cant": "depends on which objects the persistence machinery is told about", "anchors": ["src/zope/index/topic/index.py:TopicIndex.clearFilters", "src/zope/index/topic/filter.py:FilteredSetBase.clear", "src/zope/index/topic/filter.py:FilteredSetBase.setExpression"]}
{"id": "C25", "title": "NBest keeps exactly the N best", "statement": "After adding any sequence of (item, score) pairs to NBest(N), getbest() is the first N of that sequence sorted by decreasing score, earlier additions first among equal scores.", "quantifier": "all N >= 1, all sequences, any totally ordered scores", "why_tests_cant": "all sequences with all tie patterns", "anchors": ["src/zope/index/nbest.py:NBest.addmany", "src/zope/index/nbest.py:NBest.getbest"]}
{"id": "C26", "title": "NBest size, capacity and pop", "statement": "Under any history of add, addmany and pop_smallest: len never exceeds capacity(); pop_smallest returns a pair of minimal score among those held and removes exactly it, IndexError when empty; addmany equals repeated add; while capacity is never exceeded nothing is lost (priority-queue behaviour); N < 1 raises ValueError.", "quantifier": "all histories", "why_tests_cant": "a test replays a few histories; the claim ranges over every finite sequence of calls", "anchors": ["src/zope/index/nbest.py:NBest"]}
{"id": "C27", "title": "NBest comparison cost", "statement": "One add makes at most 1 + floor(log2 N) + 1 score comparisons; the bound is attained for every N, and a refused pair takes exactly one.", "quantifier": "all N, contents and scores", "why_tests_cant": "a worst case over all inputs", "anchors": ["src/zope/index/nbest.py:NBest.addmany"]}
{"id": "C28", "title": "Weighted union of many maps", "statement": "mass_weightedUnion(L) maps exactly the keys present in some map of L, each to the sum over the maps holding it of weight*value (exact arithmetic); the key set is right for any arithmetic whatsoever, floats included. It never raises.", "quantifier": "all lists of (map, weight)", "why_tests_cant": "all list lengths, sizes and overlaps; the merge order depends on sizes", "anchors": ["src/zope/index/text/setops.py:mass_weightedUnion", "src/zope/index/text/setops.py:_trivial"]}
{"id": "C29", "title": "Weighted intersection of many maps", "statement": "mass_weightedIntersection(L), ignoring None maps, maps exactly the keys present in every map of L (none if L is empty) to the sum of weight*value; the key set is right for any arithmetic.", "quantifier": "all lists of (map or None, weight)", "why_tests_cant": "as C28", "anchors": ["src/zope/index/text/setops.py:mass_weightedIntersection"]}
{"id": "C30", "title": "Mass set operations do not depend on input order", "statement": "Permuting the input list changes neither the keys nor (exact arithmetic) the scores of mass_weightedUnion and mass_weightedIntersection.", "quantifier": "all lists and permutations", "why_tests_cant": "all permutations", "anchors": ["src/zope/index/text/setops.py"]}
{"id": "C31", "title": "Widcode round trip", "statement": "decode(encode(wids)) == wids for every list of word ids in [0, 2**28); a larger id makes encode raise AssertionError.", "quantifier": "all lists, all ids", "why_tests_cant": "the test samples every 1117th id and single-element lists only", "anchors": ["src/zope/index/text/widcode.py:encode", "src/zope/index/text/widcode.py:decode"]}
{"id": "C32", "title": "Widcode is self-synchronizing", "statement": "encode(a + b) == encode(a) + encode(b); encode is injective; an occurrence of encode(wids) (wids non-empty) inside encode(doc) always starts at the boundary of an encoded word id.", "quantifier": "all lists", "why_tests_cant": "all pairs of lists", "anchors": ["src/zope/index/text/widcode.py:encode"]}
{"id": "C33", "title": "Encoded search finds exactly the phrases", "statement": "encode(doc).find(encode(wids)) >= 0 iff wids occurs as a contiguous run in doc.", "quantifier": "all lists of word ids", "why_tests_cant": "needs word ids on both sides of a 7-bit boundary", "anchors": ["src/zope/index/text/widcode.py:encode", "src/zope/index/text/baseindex.py:BaseIndex.search_phrase"]}
{"id": "C34", "title": "Rice code round trip", "statement": "For m in 1..16 and every list of integers >= 1, appending them to RiceCode(m) and calling tolist() returns the list, len() its length; a value < 1 raises ValueError and changes nothing; encode(m, l) never fails its internal assertion.", "quantifier": "all m in 1..16, all lists", "why_tests_cant": "all lists and widths", "anchors": ["src/zope/index/text/ricecode.py:RiceCode.append", "src/zope/index/text/ricecode.py:RiceCode.tolist", "src/zope/index/text/ricecode.py:encode"]}
{"id": "C35", "title": "Every documented Rice parameter works", "statement": "RiceCode(m) can be constructed for every m in 0..16 and raises ValueError otherwise.", "quantifier": "all integers m", "why_tests_cant": "m = 0 is the untested boundary", "anchors": ["src/zope/index/text/ricecode.py:RiceCode.__init__", "src/zope/index/text/ricecode.py:RiceCode.init"]}
{"id": "C36", "title": "Delta coding round trip", "statement": "decode_deltas(*encode_deltas(l)) == l for every strictly increasing list l of integers with at least one element.", "quantifier": "all strictly increasing lists", "why_tests_cant": "the only test uses consecutive ranges, on which all deltas are equal", "anchors": ["src/zope/index/text/ricecode.py:encode_deltas", "src/zope/index/text/ricecode.py:decode_deltas"]}
{"id": "C37", "title": "Rice codes survive pickling", "statement": "Pickling and unpickling a RiceCode preserves tolist() and len().", "quantifier": "all Rice codes", "why_tests_cant": "all contents", "anchors": ["src/zope/index/text/ricecode.py:RiceCode.__getstate__", "src/zope/index/text/ricecode.py:RiceCode.__setstate__"]}
{"id": "C38", "title": "BitArray is a list of bits", "statement": "After appending any bits, len is their number, item i reads back the i-th bit, assigning item i changes only that bit, and pickling preserves the content.", "quantifier": "all bit sequences and positions", "why_tests_cant": "all byte alignments", "anchors": ["src/zope/index/text/ricecode.py:BitArray"]}
{"id": "C39", "title": "Word ids are a stable bijection", "statement": "After any history of sourceToWordIds calls: every word seen has exactly one word id, different words have different ids, no id is 0, get_word(get_wid(w)) == w, and ids once assigned never change.", "quantifier": "all histories, all pipelines", "why_tests_cant": "a test replays a few histories; the claim ranges over every finite sequence of calls", "anchors": ["src/zope/index/text/lexicon.py:Lexicon._getWordIdCreate", "src/zope/index/text/lexicon.py:Lexicon._new_wid"]}
{"id": "C40", "title": "Word id allocation is safe for any counter value", "statement": "Even if the persistent word counter is replaced by an arbitrary value between calls (it is deliberately reloaded from the database), a new word never gets the id of another word, nor 0 (for a non-negative counter), and allocation terminates.", "quantifier": "all schedules of counter values", "why_tests_cant": "schedules of concurrent transactions", "anchors": ["src/zope/index/text/lexicon.py:Lexicon._new_wid", "src/zope/index/text/lexicon.py:Lexicon.sourceToWordIds"]}
{"id": "C41", "title": "Lexicon word count", "statement": "wordCount() equals the number of distinct words ever passed to sourceToWordIds after the pipeline.", "quantifier": "all histories", "why_tests_cant": "a test replays a few histories; the claim ranges over every finite sequence of calls", "anchors": ["src/zope/index/text/lexicon.py:Lexicon.wordCount"]}
{"id": "C42", "title": "Source and term lookup agree", "statement": "After sourceToWordIds(t) returned ids (for a text t, not None), termToWordIds(t) returns the same ids, then and after any later history; termToWordIds returns 0 for each unknown word and never changes the lexicon.", "quantifier": "all texts, pipelines, histories", "why_tests_cant": "a test replays a few histories; the claim ranges over every finite sequence of calls", "anchors": ["src/zope/index/text/lexicon.py:Lexicon.termToWordIds", "src/zope/index/text/lexicon.py:Lexicon.sourceToWordIds"]}
{"id": "C43", "title": "Glob lookup is exact", "statement": "globToWordIds(p), for a pattern that does not start with a glob character, returns the ids of exactly the known words matching p with * = any run and ? = any character; a pattern without glob characters returns the id of that word or nothing; a pattern starting with a glob character raises QueryError.", "quantifier": "all lexicons and patterns", "why_tests_cant": "all patterns", "anchors": ["src/zope/index/text/lexicon.py:Lexicon.globToWordIds"]}
{"id": "C44", "title": "Splitters return the maximal word runs", "statement": "Splitter.process returns exactly the maximal runs of word characters of the texts, in order; processGlob returns for glob-free text the same; splitting an already split word gives it back.", "quantifier": "all texts, all word-character classes", "why_tests_cant": "all texts", "anchors": ["src/zope/index/text/lexicon.py:Splitter"]}
{"id": "C45", "title": "HTML splitter ignores markup", "statement": "HTMLWordSplitter.process lower-cases the text and returns the words outside <...> tags and &name; entities: words inside them never show, words outside them always do. processGlob does the same with words that may contain * and ? after the first word character, and agrees with process on texts without these.", "quantifier": "all texts", "why_tests_cant": "all texts", "anchors": ["src/zope/index/text/htmlsplitter.py:HTMLWordSplitter"]}
{"id": "C46", "title": "Query parsing is total", "statement": "parseQuery terminates on every string and either returns a tree or raises ParseError; it never runs past its token list.", "quantifier": "all strings, all lexicons", "why_tests_cant": "all token sequences", "anchors": ["src/zope/index/text/queryparser.py:QueryParser.parseQuery"]}
{"id": "C47", "title": "The parser implements its grammar", "statement": "parseQuery succeeds exactly on the token sequences of the grammar OrExpr = AndExpr (OR AndExpr)*, AndExpr = Term (AND NotExpr | NOT Term)*, NotExpr = [NOT] Term, Term = ( OrExpr ) | ATOM+ whose ATOM runs have a positive word unless all are ignored and whose overall meaning is not only stop words; and the tree is the one the derivation denotes.", "quantifier": "all token sequences", "why_tests_cant": "all token sequences", "anchors": ["src/zope/index/text/queryparser.py"]}
{"id": "C48", "title": "Parsed queries never fail on NOT", "statement": "In every tree parseQuery returns, the root is not NOT, NOT occurs only as a non-first child of an AND (positive children come first), is never nested directly, and AND/OR have at least two children; so executing a parsed query never raises the NOT QueryError.", "quantifier": "all strings, lexicons and indexes", "why_tests_cant": "all trees", "anchors": ["src/zope/index/text/queryparser.py", "src/zope/index/text/parsetree.py:NotNode.executeQuery"]}
{"id": "C49", "title": "Ignored terms are reported exactly", "statement": "getIgnored() after parseQuery lists, in order, exactly the atoms whose parseTerms result is empty; if all atoms are ignored the query is rejected with ParseError.", "quantifier": "all strings", "why_tests_cant": "all strings", "anchors": ["src/zope/index/text/queryparser.py:QueryParser._parseAtom", "src/zope/index/text/interfaces.py:IQueryParser"]}
{"id": "C50", "title": "Tokenizer covers the query", "statement": "The tokens are disjoint pieces of the query in order, what lies between them is only white space or unbalanced double quotes, a quoted string is one token and keywords are recognized in any case only when they stand alone.", "quantifier": "all strings", "why_tests_cant": "all strings", "anchors": ["src/zope/index/text/queryparser.py:_tokenizer_regex"]}
{"id": "C51", "title": "The inverted index is exact", "statement": "After any history of index_doc, unindex_doc, clear: has_doc(d) iff d is currently indexed, get_words(d) is the word-id sequence of its text, and each (word, doc) weight stored is the weight computed from the current text; no call raises an internal KeyError.", "quantifier": "all histories, any weighting", "why_tests_cant": "a test replays a few histories; the claim ranges over every finite sequence of calls", "anchors": ["src/zope/index/text/baseindex.py:BaseIndex.index_doc", "src/zope/index/text/baseindex.py:BaseIndex._reindex_doc", "src/zope/index/text/baseindex.py:BaseIndex.unindex_doc"]}
{"id": "C52", "title": "Text index statistics are exact", "statement": "documentCount() is the number of indexed docids, wordCount() the number of distinct words occurring in currently indexed documents.", "quantifier": "all histories; at most 2^28 - 1 word ids, as widcode can hold", "why_tests_cant": "a test replays a few histories; the claim ranges over every finite sequence of calls", "anchors": ["src/zope/index/text/baseindex.py:BaseIndex.documentCount", "src/zope/index/text/baseindex.py:BaseIndex.wordCount"]}
{"id": "C53", "title": "Reindexing equals unindexing and indexing", "statement": "Reindexing a document leaves the index exactly as unindexing it first and indexing it again; with a fixed lexicon the index content (up to the single precision of stored weights), and all answers including scores, depend only on the current docid -> text assignment.", "quantifier": "all reachable states; at most 2^28 - 1 word ids, as widcode can hold, and for OkapiIndex documents of at most 2^24 words", "why_tests_cant": "a test replays a few histories; the claim ranges over every finite sequence of calls", "anchors": ["src/zope/index/text/baseindex.py:BaseIndex._reindex_doc"]}
{"id": "C54", "title": "Okapi total document length", "statement": "In an OkapiIndex that is never cleared, the total document length used for scoring equals the sum of the lengths of the currently indexed documents, provided documents have at most 2**24 words (single precision storage).", "quantifier": "all histories without clear; at most 2^28 - 1 word ids, as widcode can hold", "why_tests_cant": "a test replays a few histories; the claim ranges over every finite sequence of calls", "anchors": ["src/zope/index/text/okapiindex.py:OkapiIndex._change_doc_len", "src/zope/index/text/okapiindex.py:OkapiIndex._reindex_doc"]}
{"id": "C55", "title": "clear makes a text index like new", "statement": "After clear(), an OkapiIndex or CosineIndex behaves as a new index on the same lexicon.", "quantifier": "all histories", "why_tests_cant": "scores after clear depend on the history before it", "anchors": ["src/zope/index/text/baseindex.py:BaseIndex.clear", "src/zope/index/text/okapiindex.py:OkapiIndex.__init__"]}
{"id": "C56", "title": "Term search is exact", "statement": "search(term) returns None iff the lexicon maps the term to no word at all; otherwise the docids returned are exactly the currently indexed documents containing at least one of its words.", "quantifier": "all histories and terms; at most 2^28 - 1 word ids, as widcode can hold, and for OkapiIndex documents of at most 2^24 words", "why_tests_cant": "a test replays a few histories; the claim ranges over every finite sequence of calls", "anchors": ["src/zope/index/text/baseindex.py:BaseIndex.search"]}
{"id": "C57", "title": "Boolean query evaluation is exact", "statement": "Executing a parse tree whose leaves are not ignored returns exactly the docids for which the boolean formula holds (AND = all positive parts and none of the negated, OR = at least one), with ignored parts skipped; the index is not changed.", "quantifier": "all trees, all indexes; at most 2^28 - 1 word ids, as widcode can hold, and for OkapiIndex documents of at most 2^24 words, and, for queries with patterns (* and ?), patterns and words as the splitters of the package make them (no newline in a word, no regular expression metacharacter but . before the first * or ?; see C43 and C59 for others)", "why_tests_cant": "all trees", "anchors": ["src/zope/index/text/parsetree.py:AndNode.executeQuery", "src/zope/index/text/parsetree.py:OrNode.executeQuery"]}
{"id": "C58", "title": "Phrase search is exact", "statement": "search_phrase(words) returns exactly the documents whose word sequence contains the phrase contiguously.", "quantifier": "all histories and phrases", "why_tests_cant": "needs a vocabulary of more than 128 words", "anchors": ["src/zope/index/text/baseindex.py:BaseIndex.search_phrase"]}
{"id": "C59", "title": "Glob search is exact", "statement": "search_glob(p) returns exactly the documents containing a word that matches p.", "quantifier": "all histories and patterns", "why_tests_cant": "a test replays a few histories; the claim ranges over every finite sequence of calls", "anchors": ["src/zope/index/text/baseindex.py:BaseIndex.search_glob"]}
{"id": "C60", "title": "Searching never fails arithmetically", "statement": "In every reachable state, for every pipeline and every query text, TextIndex.apply on an Okapi or cosine index answers with positive scores (exact arithmetic), or raises ParseError, or the QueryError or re.error of a glob pattern: never ZeroDivisionError, a math domain error or anything else.", "quantifier": "all histories and queries; at most 2^28 - 1 word ids, as widcode can hold, and for OkapiIndex documents of at most 2^24 words", "why_tests_cant": "all histories, including empty documents and clear", "anchors": ["src/zope/index/text/okapiindex.py:OkapiIndex._python_search_wids", "src/zope/index/text/cosineindex.py:CosineIndex._search_wids"]}
{"id": "C61", "title": "Okapi query_weight bounds the scores", "statement": "For every query, every document score is at most query_weight(terms of the query) (exact arithmetic).", "quantifier": "all histories and queries", "why_tests_cant": "numeric bound over all states", "anchors": ["src/zope/index/text/okapiindex.py:OkapiIndex.query_weight", "src/zope/index/text/interfaces.py:IExtendedQuerying.query_weight"]}
{"id": "C62", "title": "Cosine query_weight bounds the scores", "statement": "As C61 for CosineIndex: the quotient is a cosine, at most 1.", "quantifier": "all histories and queries", "why_tests_cant": "numeric bound over all states", "anchors": ["src/zope/index/text/cosineindex.py:CosineIndex.query_weight", "src/zope/index/text/interfaces.py:IExtendedQuerying.query_weight"]}
{"id": "C63", "title": "Okapi term weight laws", "statement": "TF(D,t) strictly increases with f(D,t), strictly decreases with len(D), lies strictly between 0 and k1+1; IDF is positive and decreases with the number of documents holding the term.", "quantifier": "all frequencies, lengths, counts", "why_tests_cant": "real-valued laws", "anchors": ["src/zope/index/text/okapiindex.py:OkapiIndex._python_search_wids", "src/zope/index/text/baseindex.py:inverse_doc_frequency"]}
{"id": "C64", "title": "C and Python scoring loops agree", "statement": "In every state an OkapiIndex can get into, the score loop in C and the one in Python return the same buckets (or raise the same exception), so that all queries have the same results with either.", "quantifier": "all histories, all lists of word ids; at most 2^28 - 1 word ids, as widcode can hold, and for OkapiIndex documents of at most 2^24 words", "why_tests_cant": "all inputs", "anchors": ["src/zope/index/text/okascore.c:score", "src/zope/index/text/okapiindex.py:OkapiIndex._python_search_wids"]}
{"id": "C65", "title": "Indexed words are found", "statement": "With the default pipeline, if a currently indexed text contains a word that is not a stop word, then apply of that word, in any case, returns the document; and it returns no document without such a word.", "quantifier": "all texts, words and histories", "why_tests_cant": "all texts and alphabets; the query word is normalized twice", "anchors": ["src/zope/index/text/textindex.py:TextIndex.apply", "src/zope/index/text/lexicon.py:Splitter", "src/zope/index/text/lexicon.py:CaseNormalizer", "src/zope/index/text/lexicon.py:StopWordRemover"]}
{"id": "C66", "title": "Searching does not change the index", "statement": "TextIndex.apply and all index searches leave the index unchanged although apply rescales the returned mapping in place.", "quantifier": "all states and queries", "why_tests_cant": "the aliasing case depends on a numeric coincidence", "anchors": ["src/zope/index/text/textindex.py:TextIndex.apply", "src/zope/index/text/setops.py:_trivial", "src/zope/index/text/cosineindex.py:CosineIndex._search_wids"]}
{"id": "C67", "title": "Normalized scores", "statement": "TextIndex.apply on an Okapi index returns scores in (0, 1] for glob-free queries (exact arithmetic), and the same docids as executing the parsed query.", "quantifier": "all histories and queries; at most 2^28 - 1 word ids, as widcode can hold, and for OkapiIndex documents of at most 2^24 words, and, for queries with patterns (* and ?), patterns and words as the splitters of the package make them (no newline in a word, no regular expression metacharacter but . before the first * or ?; see C43 and C59 for others)", "why_tests_cant": "numeric bound over all states", "anchors": ["src/zope/index/text/textindex.py:TextIndex.apply"]}
{"id": "C68", "title": "Calls that fail change nothing", "statement": "If index_doc raises because the docid is not one the index accepts, the index answers afterwards, whatever follows, as if the call had not been made.", "quantifier": "all histories, all positions of failing calls", "why_tests_cant": "needs failing calls mixed into histories", "anchors": ["src/zope/index/field/index.py:FieldIndex.index_doc", "src/zope/index/keyword/index.py:KeywordIndex.index_doc", "src/zope/index/text/baseindex.py:BaseIndex.index_doc"]}
{"id": "C69", "title": "Scores are those of the documented formulas", "statement": "Executing a parsed query gives every matching document the sum, over the words of the matching non-negated parts, of the BM25 weight (OkapiIndex: term frequency weight with the mean document length of the current documents times inverse document frequency) or of the normalized cosine weight (CosineIndex), computed from the texts currently indexed (exact arithmetic).", "quantifier": "all histories without clear, all queries; at most 2^28 - 1 word ids, as widcode can hold, and for OkapiIndex documents of at most 2^24 words, and, for queries with patterns (* and ?), patterns and words as the splitters of the package make them (no newline in a word, no regular expression metacharacter but . before the first * or ?; see C43 and C59 for others)", "why_tests_cant": "all histories; scores depend on every document", "anchors": ["src/zope/index/text/okapiindex.py:OkapiIndex._python_search_wids", "src/zope/index/text/cosineindex.py:CosineIndex._search_wids", "src/zope/index/text/cosineindex.py:CosineIndex._get_frequencies", "src/zope/index/text/setops.py:mass_weightedUnion"]}
{"id": "C70", "title": "Concurrent transactions merge correctly", "statement": "Transactions that index and unindex documents, each working on the state that was the latest one when it began, commit in any order and overlap in any way. Whenever the database accepts a commit, no docid was changed both by it and by others since it began, and the committed index is exactly an index used by one thread holding, for every docid, the value of the transaction that changed it; word ids handed out by a lexicon stay unique and valid. A transaction that no other committed transaction overlapped has no conflicts.", "quantifier": "all schedules: any number of transactions, any snapshots, any calls, any refusals by the database", "why_tests_cant": "all interleavings of commits; the sets are merged object by object", "anchors": ["src/zope/index/field/index.py:FieldIndex.index_doc", "src/zope/index/field/index.py:FieldIndex.unindex_doc", "src/zope/index/keyword/index.py:KeywordIndex._insert_forward", "src/zope/index/keyword/index.py:KeywordIndex.unindex_doc", "src/zope/index/text/lexicon.py:Lexicon._new_wid", "src/zope/index/text/baseindex.py:BaseIndex._add_wordinfo", "src/zope/index/text/baseindex.py:BaseIndex._del_wordinfo"]}
{"id": "C71", "title": "Objects stored by older releases keep working", "statement": "A text index stored by an older release (without wordCount and documentCount counters, with a plain number as total length) or a lexicon without counter answers queries and counts as one made by this release would, and all further calls leave it as they would leave that one.", "quantifier": "all histories before and after, all combinations of missing counters", "why_tests_cant": "the missing counters are rebuilt in six places, each at another point of an update", "anchors": ["src/zope/index/text/baseindex.py:BaseIndex._add_wordinfo", "src/zope/index/text/baseindex.py:BaseIndex._mass_add_wordinfo", "src/zope/index/text/baseindex.py:BaseIndex._del_wordinfo", "src/zope/index/text/baseindex.py:BaseIndex.index_doc", "src/zope/index/text/baseindex.py:BaseIndex.unindex_doc", "src/zope/index/text/okapiindex.py:OkapiIndex._change_doc_len", "src/zope/index/text/lexicon.py:Lexicon.sourceToWordIds"]}
{"id": "C72", "title": "Committed changes of a text index are stored completely", "statement": "A program uses a text index and its lexicon through a database connection that writes at a commit only what is marked as changed, and that may drop unmarked objects and load them again at any time. After any calls, commits and aborts, what the program sees is an index on which the committed calls and the pending ones were made, and what the database holds (after a crash or restart) is an index on which exactly the committed calls were made.", "quantifier": "all sequences of calls, commits, aborts and cache evictions, all crash points, all pipelines and scorings; at most 2^28 - 1 word ids, as widcode can hold, and for OkapiIndex documents of at most 2^24 words", "why_tests_cant": "one dict changed without being assigned again is lost only when its bucket happens to be unmarked and is loaded again later", "anchors": ["src/zope/index/text/baseindex.py:BaseIndex._add_wordinfo", "src/zope/index/text/baseindex.py:BaseIndex._mass_add_wordinfo", "src/zope/index/text/baseindex.py:BaseIndex._del_wordinfo", "src/zope/index/text/baseindex.py:BaseIndex.index_doc", "src/zope/index/text/baseindex.py:BaseIndex.unindex_doc", "src/zope/index/text/baseindex.py:BaseIndex.clear", "src/zope/index/text/okapiindex.py:OkapiIndex._change_doc_len", "src/zope/index/text/lexicon.py:Lexicon.sourceToWordIds", "src/zope/index/text/lexicon.py:Lexicon._new_wid"]}
{"id": "C73", "title": "Sharing a lexicon changes no answer", "statement": "Two text indexes to whose docids the same texts are currently assigned give the same answers (statistics, words of documents, searches for words, globs, query weights, queries, all with their scores), whatever calls led there and whatever the ids of the words in their lexicons are; so an index whose lexicon is also filled by other indexes answers like one with a lexicon of its own.", "quantifier": "all pairs of histories, all calls of other users of the lexicon in between, all queries, all pipelines, both scorings", "why_tests_cant": "the other users of the lexicon can add any words at any time; a difference may need more than a hundred words", "anchors": ["src/zope/index/text/baseindex.py:BaseIndex.index_doc", "src/zope/index/text/baseindex.py:BaseIndex.search", "src/zope/index/text/baseindex.py:BaseIndex.search_phrase", "src/zope/index/text/baseindex.py:BaseIndex.search_glob", "src/zope/index/text/baseindex.py:BaseIndex._remove_oov_wids", "src/zope/index/text/lexicon.py:Lexicon.sourceToWordIds", "src/zope/index/text/lexicon.py:Lexicon.globToWordIds", "src/zope/index/text/okapiindex.py:OkapiIndex._get_frequencies", "src/zope/index/text/cosineindex.py:CosineIndex._get_frequencies", "src/zope/index/text/textindex.py:TextIndex.apply"]}
{"id": "C74", "title": "Scores in floating point stay close to the documented formulas", "statement": "With every arithmetic operation rounded (relative error at most u, at most 1/64; in double precision with weights stored in single precision u = 2^-24), a query and TextIndex.apply return exactly the documents that match, never raise, and every score agrees with the exact formula (BM25 sum or cosine weight, divided by the weight of the query in apply) up to a factor (1/(1-u))^n, where n is a number of roundings that depends on the query (and for CosineIndex on the number of different words of the document) only, not on the number of documents or of words in the index; so documents whose exact scores differ by more are listed in the right order.", "quantifier": "all rounded arithmetics, all histories, all queries, all pipelines, both scorings; at most 2^28 - 1 word ids, as widcode can hold, and for OkapiIndex documents of at most 2^24 words, and, for queries with patterns (* and ?), patterns and words as the splitters of the package make them (no newline in a word, no regular expression metacharacter but . before the first * or ?; see C43 and C59 for others)", "why_tests_cant": "rounding errors of any direction in every operation; all histories and queries", "anchors": ["src/zope/index/text/okapiindex.py:OkapiIndex._python_search_wids", "src/zope/index/text/okapiindex.py:OkapiIndex.query_weight", "src/zope/index/text/cosineindex.py:CosineIndex._search_wids", "src/zope/index/text/cosineindex.py:CosineIndex._get_frequencies", "src/zope/index/text/cosineindex.py:CosineIndex.query_weight", "src/zope/index/text/setops.py:mass_weightedUnion", "src/zope/index/text/setops.py:mass_weightedIntersection", "src/zope/index/text/baseindex.py:inverse_doc_frequency", "src/zope/index/text/textindex.py:TextIndex.apply"]}
{"id": "C75", "title": "HTML documents are found by the words outside markup", "statement": "With the pipeline HTMLWordSplitter, CaseNormalizer, StopWordRemover, apply of a word (whose lower case consists of word characters, is its own lower case and is no stop word) returns exactly the documents whose current text contains this word, in any case, outside <...> tags and &name; entities.", "quantifier": "all texts, words and histories", "why_tests_cant": "all texts, markup and histories; splitter, lexicon, parser and index together", "anchors": ["src/zope/index/text/htmlsplitter.py:HTMLWordSplitter", "src/zope/index/text/textindex.py:TextIndex.apply", "src/zope/index/text/lexicon.py:Lexicon.parseTerms"]}
{"id": "C76", "title": "Queries can be combined", "statement": "If apply accepts the texts q1 and q2, in each of which the double quotes are paired, it accepts (q1) OR (q2), (q1) AND (q2) and (q1) AND NOT (q2), and finds the documents that one of them finds, that both find, and that q1 finds and q2 does not find; a part for which apply returns None is left out of an AND.", "quantifier": "all pairs of query texts, all histories; at most 2^28 - 1 word ids, as widcode can hold, and for OkapiIndex documents of at most 2^24 words, and, for queries with patterns (* and ?), patterns and words as the splitters of the package make them (no newline in a word, no regular expression metacharacter but . before the first * or ?; see C43 and C59 for others)", "why_tests_cant": "all query texts; tokenizer, parser and evaluation together", "anchors": ["src/zope/index/text/queryparser.py:QueryParser.parseQuery", "src/zope/index/text/textindex.py:TextIndex.apply"]}
{"id": "C77", "title": "Better documents rank higher", "statement": "With OkapiIndex, if apply finds document e for a query, and document d has no more words than e, has every word asked for at least as often, matches every phrase asked for that e matches, and matches no excluded part that e does not match, then apply finds d too, with at least the same score, and with a higher score if d has fewer words; NBest(N) then lists such a shorter d before e.", "quantifier": "all queries, all histories, all pairs of documents, exact arithmetic; at most 2^28 - 1 word ids, as widcode can hold, and for OkapiIndex documents of at most 2^24 words, and, for queries with patterns (* and ?), patterns and words as the splitters of the package make them (no newline in a word, no regular expression metacharacter but . before the first * or ?; see C43 and C59 for others)", "why_tests_cant": "all queries, corpora and pairs of documents; the score is a sum over parts of the query, each with its own statistics", "anchors": ["src/zope/index/text/okapiindex.py:OkapiIndex._search_wids", "src/zope/index/text/textindex.py:TextIndex.apply", "src/zope/index/nbest.py:NBest"]}
{"id": "C78", "title": "Concurrent transactions on a topic index", "statement": "Filters are registered; then transactions index and unindex documents, each working on the state that was the latest one when it began, commit in any order and overlap in any way. Whenever the database accepts a commit, no docid was changed both by it and by others since it began, and the filters then hold, for every docid, what the transaction that changed it made them hold, as if the transactions had been run one after the other.", "quantifier": "all schedules: any number of transactions, any snapshots, any filters and objects, any refusals by the database", "why_tests_cant": "all interleavings of commits; each filter has its own set, resolved on its own", "anchors": ["src/zope/index/topic/index.py:TopicIndex.index_doc", "src/zope/index/topic/index.py:TopicIndex.unindex_doc", "src/zope/index/topic/filter.py:FilteredSetBase.unindex_doc", "src/zope/index/topic/filter.py:PythonFilteredSet.index_doc"]}
{"id": "C79", "title": "sort() while the index changes", "statement": "sort() returns a lazy iterator: calling it does nothing and raises nothing, and if the index does not change after the first next(), it yields what the index held then. If the index changes while the iterator is in use, it yields only docids that were asked for, at most limit of them, each indexed at that moment and none twice; the documents whose value does not change come out in the order of their values, and none of them is missing unless the limit ended the iteration.", "quantifier": "all histories, all calls of index_doc, unindex_doc and clear in any places between the calls of next(), all docids, limits, directions and strategies", "why_tests_cant": "all interleavings of updates with the steps of an iterator; three strategies holding on to different parts of the state", "anchors": ["src/zope/index/field/sorting.py:SortingIndexMixin.sort", "src/zope/index/field/index.py:FieldIndex.index_doc", "src/zope/index/field/index.py:FieldIndex.clear"]}
{"id": "C80", "title": "clear() in concurrent transactions", "statement": "Transactions that index and unindex documents or clear the index, each working on the state that was the latest one when it began, commit in any order and overlap in any way. When a transaction that called clear() commits, the index holds exactly the documents it indexed afterwards; a transaction that began before this commit and commits after it leaves none of its documents in the index, as if it had been run before; two overlapping transactions that called clear() do not both commit; in all other cases documents are merged as without clear(). Every committed state is exactly an index used by one thread holding these documents; a text index keeps all words in its lexicon. A transaction that no other committed transaction overlapped has no conflicts.", "quantifier": "all schedules: any number of transactions, any snapshots, any calls, any refusals by the database", "why_tests_cant": "all interleavings of commits; a transaction may write to containers that are no longer part of the index", "anchors": ["src/zope/index/field/index.py:FieldIndex.clear", "src/zope/index/keyword/index.py:KeywordIndex.clear", "src/zope/index/text/baseindex.py:BaseIndex.clear", "src/zope/index/text/textindex.py:TextIndex.clear"]}
{"id": "C81", "title": "Scores of combined queries", "statement": "For (q1) AND (q2) and (q1) OR (q2), the score of a document follows from its scores for q1 and q2 and from the query weights: with OkapiIndex it is their mean weighted with the query weights (0 for a query that does not find the document), so it lies between the two scores if both find it and is lower than the one score if only one does; with CosineIndex the divisor is the root of the sum of the squared weights. (q1) AND NOT (q2) leaves every score of q1 unchanged. Exact arithmetic.", "quantifier": "all histories, query texts with paired quotes and documents", "why_tests_cant": "all pairs of queries and all collections; scores are sums over nested parts divided by weights computed separately", "anchors": ["src/zope/index/text/textindex.py:TextIndex.apply", "src/zope/index/text/parsetree.py:AndNode", "src/zope/index/text/parsetree.py:OrNode", "src/zope/index/text/parsetree.py:NotNode", "src/zope/index/text/okapiindex.py:query_weight", "src/zope/index/text/cosineindex.py:query_weight"]}
{"id": "C82", "title": "Stop words do not matter", "statement": "With the splitter, the case normalizer and a stop word remover, the words of a text are its lower-case words without the stop words, in order. Histories whose texts differ only in stop words leave the same index. apply of a stop word raises ParseError; joining a stop word to a query with OR, AND or AND NOT does not change the answer. StopWordAndSingleCharRemover also removes every word of a single character.", "quantifier": "all texts, histories and queries, any dictionary of stop words", "why_tests_cant": "all texts and histories; stop words in any position and case", "anchors": ["src/zope/index/text/lexicon.py:StopWordRemover", "src/zope/index/text/lexicon.py:StopWordAndSingleCharRemover", "src/zope/index/text/queryparser.py:QueryParser", "src/zope/index/text/textindex.py:TextIndex.apply"]}
{"id": "C83", "title": "The length of a query does not exhaust the stack", "statement": "A query of any length in which at most m parentheses are open at any place is parsed and answered with a number of nested Python calls that depends only on m (four for each open parenthesis and a fixed number): given that many, the outcome is that of an unlimited stack and RecursionError is not raised. In particular one fixed number is enough for all queries without parentheses.", "quantifier": "all query texts, all recursion limits, all indexes", "why_tests_cant": "queries of unbounded length and nesting", "anchors": ["src/zope/index/text/queryparser.py:QueryParser.parseQuery", "src/zope/index/text/parsetree.py:AndNode.executeQuery", "src/zope/index/text/parsetree.py:OrNode.executeQuery", "src/zope/index/text/textindex.py:TextIndex.apply"]}
{"id": "C84", "title": "A quoted text finds the documents that contain it", "statement": "A text in double quotes, without double quotes in it, is one term of the query: nothing in it is taken as operator, parenthesis or negation. If a passage of an indexed text begins and ends between words, the query that consists of the passage in double quotes finds the document, and nothing but documents that contain the words of the passage, other than stop words, one after the other; if the passage has no words but stop words, it raises ParseError.", "quantifier": "all texts and passages, all histories of the index, all character classes and case mappings with the stated laws", "why_tests_cant": "the texts and passages are unbounded", "anchors": ["src/zope/index/text/queryparser.py:QueryParser.parseQuery", "src/zope/index/text/lexicon.py:Splitter.process", "src/zope/index/text/lexicon.py:Lexicon.parseTerms", "src/zope/index/text/textindex.py:TextIndex.apply"]}
{"id": "C85", "title": "The C extension keeps the rules for references and exceptions", "statement": "Whatever arguments the C scoring function is given, and whatever the operations it performs on them return, it uses no object that may have been freed, gives back every reference it takes exactly once (so searching neither crashes nor leaks), and returns either None with no exception set or an error with an exception set. With the arguments an index passes it stores the score of every document of the word, or raises KeyError for a document without length.", "quantifier": "all arguments, all outcomes of all operations of the interpreter (any of them may fail at any time), all numbers of documents", "why_tests_cant": "failures of single operations cannot be provoked in tests, and a leak or a use after free has no visible effect", "anchors": ["src/zope/index/text/okascore.c:score", "src/zope/index/text/okapiindex.py:OkapiIndex._c_search_wids"]}
{"id": "C86", "title": "A query parser can be used again", "statement": "Whatever queries a query parser object parsed or rejected before, and whatever was done to the lists it handed out, parseQuery returns the tree or raises the ParseError that a new parser would. getIgnored() is None before the first query; afterwards it is a list made for the last query: the ignored terms of that query in order or, if the query was rejected, those before some place in it. parseQueryEx returns the tree of parseQuery and this list. A list that was handed out is never changed by later queries nor handed out again.", "quantifier": "all sequences of queries and of changes to the lists handed out, all lexicons", "why_tests_cant": "the number of histories of one object is unbounded; tests use a new parser or one that has parsed a few queries", "anchors": ["src/zope/index/text/queryparser.py:QueryParser.parseQuery", "src/zope/index/text/queryparser.py:QueryParser.getIgnored", "src/zope/index/text/queryparser.py:QueryParser.parseQueryEx"]}
{"id": "C87", "title": "Concurrent transactions act as if run one after the other", "statement": "When several transactions index and unindex documents of a field, keyword or text index, each working on the state that was the latest when it began, then every committed state is the state (for text indexes: answers like the state) of an index used by one thread that executes the calls of the committed transactions, one transaction after the other.", "quantifier": "all numbers of transactions, all calls in them, all overlaps, all decisions of the database to refuse a transaction", "why_tests_cant": "the interleavings are unbounded and the mixture only shows for particular overlaps", "anchors": ["src/zope/index/field/index.py:FieldIndex.index_doc", "src/zope/index/keyword/index.py:KeywordIndex.index_doc", "src/zope/index/text/baseindex.py:BaseIndex.index_doc"]}
{"id": "C88", "title": "Order, grouping and repetition in queries do not matter", "statement": "If two queries differ only in the order of the operands of AND and OR and in brackets around operands of the same operator, anywhere in the query, then apply returns the same documents with the same scores for both (brackets in an AND: provided they hold an operand that is neither negated nor ignored). `(q) OR (q)` and `(q) AND (q)` return the documents and scores of `q`. Scores in exact arithmetic; with rounding the documents are the same and the scores agree up to the rounding errors.", "quantifier": "all queries, however nested, all histories of an index with OkapiIndex or CosineIndex ; at most 2^28 - 1 word ids, as widcode can hold, and, for queries with patterns (* and ?), patterns and words as the splitters of the package make them (no newline in a word, no regular expression metacharacter but . before the first * or ?; see C43 and C59 for others)", "why_tests_cant": "the queries are unbounded trees and the histories unbounded sequences", "anchors": ["src/zope/index/text/queryparser.py:QueryParser._parseOrExpr", "src/zope/index/text/parsetree.py:AndNode.executeQuery", "src/zope/index/text/parsetree.py:OrNode.executeQuery", "src/zope/index/text/textindex.py:TextIndex.apply"]}
{"id": "C89", "title": "Documents do not influence whether others are found", "statement": "Whatever is indexed, reindexed or unindexed for other documents, with or without exceptions, and however the lexicon is used, no query to a field, keyword, topic or text index begins or ceases to find a document (only its score may change), and a text query that is not understood stays so.", "quantifier": "all histories, all further calls that do not name the document and are not clear() or changes of topic filters, all queries; text indexes: at most 2^28 - 1 word ids, as widcode can hold, and for OkapiIndex documents of at most 2^24 words, and, for queries with patterns (* and ?), patterns and words as the splitters of the package make them (no newline in a word, no regular expression metacharacter but . before the first * or ?; see C43 and C59 for others)", "why_tests_cant": "all histories and continuations; shared containers and word ids connect the documents", "anchors": ["src/zope/index/field/index.py:FieldIndex.index_doc", "src/zope/index/keyword/index.py:KeywordIndex.index_doc", "src/zope/index/keyword/index.py:KeywordIndex.unindex_doc", "src/zope/index/topic/index.py:TopicIndex.index_doc", "src/zope/index/text/baseindex.py:BaseIndex.index_doc", "src/zope/index/text/baseindex.py:BaseIndex.unindex_doc"]}
{"id": "C90", "title": "Ways to write the same query", "statement": "White space of any kind and amount between, before and after the parts of a query, the case of keywords, brackets around a whole query, doubled brackets anywhere in it, AND between terms that could stand side by side, and AND NOT or NOT instead of a hyphen before a term (if the lexicon finds the same words in the term with and without it) do not change what parseQuery returns or raises and what apply answers, scores included. (Outside double quotes.)", "quantifier": "all query texts with paired double quotes before the place in question, all lexicons, all states of all indexes", "why_tests_cant": "unbounded texts; tokenizer and parser together", "anchors": ["src/zope/index/text/queryparser.py:QueryParser.parseQuery", "src/zope/index/text/queryparser.py:QueryParser._parseTerm", "src/zope/index/text/queryparser.py:QueryParser._parseAndExpr", "src/zope/index/text/textindex.py:TextIndex.apply"]}
{"id": "C91", "title": "Docids are only names", "statement": "If the same calls are made with other docids, different documents having different new docids, every range, keyword, topic and text query returns the new docids of the documents it returned before, with the same text scores, or raises the same exception, and the counts are the same. Sorting yields the new docids in the same order if the new docids are in the same order as the old ones (documents with equal values are ordered by docid).", "quantifier": "all histories, all injective (for sorting: increasing) maps of docids, all queries, pipelines and limits", "why_tests_cant": "unbounded histories and all renamings; scores depend on all documents", "anchors": ["src/zope/index/field/index.py:FieldIndex.apply", "src/zope/index/field/sorting.py:SortingIndexMixin.sort", "src/zope/index/keyword/index.py:KeywordIndex.search", "src/zope/index/topic/index.py:TopicIndex.search", "src/zope/index/text/textindex.py:TextIndex.apply"]}
{"id": "C92", "title": "Committed changes of field and keyword indexes are stored completely", "statement": "A program uses a field or keyword index in a ZODB database. After every commit the database holds an index on which exactly the committed calls were made, and the program, whatever the cache of its connection drops and loads again, sees an index on which the committed calls and those since the last commit or abort were made; calls that raised an exception count unless the transaction is aborted.", "quantifier": "all sequences of calls (clear(), optimize() and changes of tree_threshold included), commits, aborts and reloads of any unchanged objects; all placements of keys in buckets", "why_tests_cant": "a change that is not noticed is only lost when the object happens to be dropped from the cache, or after a restart", "anchors": ["src/zope/index/field/index.py:FieldIndex.index_doc", "src/zope/index/field/index.py:FieldIndex.unindex_doc", "src/zope/index/field/index.py:FieldIndex.clear", "src/zope/index/keyword/index.py:KeywordIndex.index_doc", "src/zope/index/keyword/index.py:KeywordIndex.unindex_doc", "src/zope/index/keyword/index.py:KeywordIndex.optimize"]}
{"id": "C93", "title": "Indexes changed in the same transactions stay in step", "statement": "A program keeps a field index and a text index in one database, and each transaction gives documents a value and a text, or removes them from both. However the transactions overlap, in every committed state each document is in both indexes or in neither, both count the same number of documents, each index answers like one used by one thread, and the value and the text of a document were given by the same call.", "quantifier": "all numbers of transactions, all calls in them, all overlaps, all decisions of the database to refuse a transaction; all pipelines, both scorings; for OkapiIndex documents of at most 2^24 words", "why_tests_cant": "the interleavings are unbounded, and every index is merged on its own", "anchors": ["src/zope/index/field/index.py:FieldIndex.index_doc", "src/zope/index/field/index.py:FieldIndex.unindex_doc", "src/zope/index/text/textindex.py:TextIndex.index_doc", "src/zope/index/text/textindex.py:TextIndex.unindex_doc", "src/zope/index/text/baseindex.py:BaseIndex.index_doc"]}
{"id": "C94", "title": "Values, keywords and words are only compared", "statement": "Values are only compared: replacing the values and the bounds of queries by others in the same order changes no range query, count or sort. Keywords and words are only compared for equality: replacing different keywords or words by different ones, in the documents and in the queries, changes no answer, count or score; so a last pipeline element that encrypts the words, say, changes no search.", "quantifier": "all histories, all replacements, all range queries, limits and sorting strategies, all keyword queries, all words, phrases and parsed queries without patterns, all pipelines, both scorings in every arithmetic", "why_tests_cant": "the replacements are infinitely many, and so are the histories", "anchors": ["src/zope/index/field/index.py:FieldIndex.apply", "src/zope/index/field/sorting.py:SortingIndexMixin.sort", "src/zope/index/keyword/index.py:KeywordIndex.search", "src/zope/index/text/lexicon.py:Lexicon.sourceToWordIds", "src/zope/index/text/lexicon.py:Lexicon.termToWordIds", "src/zope/index/text/baseindex.py:BaseIndex.search", "src/zope/index/text/baseindex.py:BaseIndex.search_phrase", "src/zope/index/text/baseindex.py:BaseIndex.query_weight"]}
{"id": "C95", "title": "The laws of logic hold for queries", "statement": "Query texts joined by OR, AND and AND NOT, every part in parentheses and nested however deeply, are accepted if the parts are, and find the documents for which the formula is true. So equivalent formulas find the same documents (distributivity, De Morgan, absorption and so on), a further condition finds no other documents and a further alternative loses none.", "quantifier": "all formulas of all query texts with paired double quotes that are answered with documents, all histories of the index, all pipelines, both scorings", "why_tests_cant": "formulas and query texts are infinitely many, and parser, tree and set operations all take part", "anchors": ["src/zope/index/text/queryparser.py:QueryParser.parseQuery", "src/zope/index/text/parsetree.py:OrNode.executeQuery", "src/zope/index/text/parsetree.py:AndNode.executeQuery", "src/zope/index/text/parsetree.py:NotNode", "src/zope/index/text/textindex.py:TextIndex.apply", "src/zope/index/text/setops.py:mass_weightedUnion", "src/zope/index/text/setops.py:mass_weightedIntersection"]}
{"id": "C96", "title": "A text the pipeline rejects changes nothing", "statement": "If index_doc raises because the pipeline does not accept the text (a number, a byte string, an element that raises), then the exception reaches the caller and the index and its lexicon are as if the call had not been made: all later calls behave the same.", "quantifier": "all histories of calls some of which are rejected, at any place, for new and for indexed docids; all pipelines; both index classes", "why_tests_cant": "what such a call leaves behind shows only in later calls, which are infinitely many", "anchors": ["src/zope/index/text/baseindex.py:BaseIndex.index_doc", "src/zope/index/text/baseindex.py:BaseIndex._reindex_doc", "src/zope/index/text/okapiindex.py:OkapiIndex._reindex_doc", "src/zope/index/text/okapiindex.py:OkapiIndex._change_doc_len", "src/zope/index/text/lexicon.py:Lexicon.sourceToWordIds"]}
{"id": "C97", "title": "Scores of one-word queries are given by the document", "statement": "For a query of one word, apply gives each document that has the word a score that is a function of its own text and, with OkapiIndex, of the mean document length: how many other documents there are and how many of them have the word does not matter. With CosineIndex a document has the same score in any two indexes.", "quantifier": "all one-word queries, all histories of the index, all pipelines, both index classes", "why_tests_cant": "scores of infinitely many indexes are compared", "anchors": ["src/zope/index/text/textindex.py:TextIndex.apply", "src/zope/index/text/okapiindex.py:OkapiIndex.query_weight", "src/zope/index/text/cosineindex.py:CosineIndex.query_weight", "src/zope/index/text/cosineindex.py:CosineIndex._search_wids", "src/zope/index/text/okapiindex.py:OkapiIndex._search_wids"]}
{"id": "C98", "title": "Patterns find what they stand for", "statement": "With the default pipeline, apply of a pattern as users type it (a word character, then word characters, * and ?) finds exactly the documents whose text has a word, other than a stop word, whose lower case matches the lower case of the pattern, each * standing for any number of characters and each ? for one. In particular a document is found by the beginning of any of its words followed by *, and a longer beginning finds no other documents than a shorter one.", "quantifier": "all patterns, all histories of the index, all documents, both index classes", "why_tests_cant": "patterns, texts and histories are unbounded; parser, pipeline, lexicon and index must agree on every one of them", "anchors": ["src/zope/index/text/textindex.py:TextIndex.apply", "src/zope/index/text/lexicon.py:Lexicon.globToWordIds", "src/zope/index/text/lexicon.py:Splitter.processGlob", "src/zope/index/text/queryparser.py:QueryParser._parseAtom", "src/zope/index/text/baseindex.py:BaseIndex.search_glob"]}
{"id": "C99", "title": "Search in one index, sort by another or by score", "statement": "sort() of a field index, given the result of a text query, a keyword search or a range query of any index over the same docids, yields exactly the documents that match and have a value in the field index, in order of value and docid, and with a limit the first of them, whichever strategy is used. An NBest(N) fed with the items of the result of a text query holds the N matching documents with the highest scores (all if they are fewer) in decreasing order of score, the smaller docid first among equal ones.", "quantifier": "all histories of both indexes, all queries, limits and N, all strategies", "why_tests_cant": "two histories, a query and a limit vary independently", "anchors": ["src/zope/index/text/setops.py:SortingIndexMixin.sort", "src/zope/index/text/textindex.py:TextIndex.apply", "src/zope/index/keyword/index.py:KeywordIndex.search", "src/zope/index/field/index.py:FieldIndex.apply", "src/zope/index/nbest.py:NBest.addmany"]}
