#!/usr/bin/env python3
"""Writes /verif/properties.jsonl (one JSON object per line)."""
import json, os
P = []
def p(id, title, statement, quantifier, why, *anchors):
    P.append(dict(id=id, title=title, statement=statement, quantifier=quantifier,
                  why_tests_cant=why, anchors=list(anchors)))
FI='src/zope/index/field/index.py'; FS='src/zope/index/field/sorting.py'
KI='src/zope/index/keyword/index.py'; TI='src/zope/index/topic/index.py'; TF='src/zope/index/topic/filter.py'
NB='src/zope/index/nbest.py'; SO='src/zope/index/text/setops.py'; WC='src/zope/index/text/widcode.py'
RC='src/zope/index/text/ricecode.py'; LX='src/zope/index/text/lexicon.py'; HS='src/zope/index/text/htmlsplitter.py'
QP='src/zope/index/text/queryparser.py'; PT='src/zope/index/text/parsetree.py'; BI='src/zope/index/text/baseindex.py'
OK='src/zope/index/text/okapiindex.py'; CO='src/zope/index/text/cosineindex.py'; TX='src/zope/index/text/textindex.py'; OS='src/zope/index/text/okascore.c'
OC='src/zope/index/text/okascore.c'; IF='src/zope/index/interfaces.py'; TIF='src/zope/index/text/interfaces.py'
HIST='a test replays a few histories; the claim ranges over every finite sequence of calls'

# ---- field
p('C01','Field range query is exact','After any sequence of index_doc, unindex_doc and clear on a FieldIndex, apply((lo, hi)) returns exactly the docids whose most recently indexed value v (not since unindexed or cleared) satisfies lo <= v <= hi, where None for a bound means unbounded; a query that is not a 2-tuple raises TypeError.','all call histories, all value orders, all bounds',HIST,FI+':FieldIndex.apply',FI+':FieldIndex.index_doc',FI+':FieldIndex.unindex_doc')
p('C02','Field statistics are exact','After any history, documentCount() is the number of docids currently indexed and wordCount() is the number of distinct values currently held by at least one docid.','all call histories',HIST,FI+':FieldIndex.documentCount',FI+':FieldIndex.wordCount')
p('C03','Field unindex and clear leave nothing behind','In any reachable state unindex_doc(d) removes d from every query answer and changes nothing about other docids; unindexing an unknown docid changes nothing; after clear() the index answers exactly like a new one.','all reachable states, all docids',HIST,FI+':FieldIndex.unindex_doc',FI+':FieldIndex.clear',IF+':IInjection.unindex_doc')
p('C04','Field index is history independent','Two histories that leave the same docid -> value assignment leave indistinguishable indexes (every query, statistic and sort agrees); in particular reindexing with the same value is a no-op and operations on distinct docids commute.','all pairs of histories','pairs of histories with equal final assignment form an infinite family',FI+':FieldIndex.index_doc')
p('C05','Ascending sort is correct under every strategy','When every comparison the sort makes is between mutually orderable values, sort(docids, limit=n) yields exactly the first n (all, if n is None) of the indexed docids among docids, ordered by (value, docid), without duplicates, whichever of the n-best, lazy or full-sort strategies is taken.','all reachable states, docid collections, limits and strategy choices','the strategy depends on sizes, so tests exercise only a few size combinations',FS+':SortingIndexMixin.sort')
p('C06','Descending sort is correct under every strategy','Under the same condition, sort(docids, reverse=True, limit=n) yields min(n, k) distinct indexed docids of docids (k of them are indexed) in non-increasing value order, and every docid left out has a value <= every value yielded.','all reachable states, docid collections, limits and strategy choices','as C05',FS+':SortingIndexMixin.sort')
p('C07','A limited sort is a prefix of the unlimited sort','sort(docids, reverse, limit=n) equals the first n elements of sort(docids, reverse).','all reachable states, docid collections, limits, both directions','ties between equal values at the cut are the case tests miss',FS+':SortingIndexMixin.sort',IF+':IIndexSort.sort')
p('C08','Sorting skips unindexed docids','sort never fails because some of the docids are not indexed: they are skipped and the rest is sorted.','all reachable states, value types and docid collections','the failure depends on value type and on which strategy the sizes select',FS+':SortingIndexMixin.sort',IF+':IIndexSort.sort')
p('C09','Every value a field index accepts can be sorted','If index_doc accepted the values (including None, which is documented as a valid value), sort on them does not raise.','all reachable states containing None values','depends on the combination of values and on the strategy',FS+':SortingIndexMixin.sort',FI+':FieldIndex.index_doc')
p('C10','Field unindex never raises, even on a damaged index','For every internal state whatsoever, including ones where the forward and reverse maps disagree, unindex_doc(d) does not raise, and afterwards d is not indexed (it does not appear in the reverse map).','all states, reachable or not, all docids','damaged states are unbounded in shape',FI+':FieldIndex.unindex_doc')
# ---- keyword
p('C11','Keyword and/or search is exact','After any history of index_doc (with lists or tuples of keywords, or anything that is false or holds a keyword after normalization; see C16 for other iterables), unindex_doc, optimize, threshold changes and clear on a KeywordIndex, search(words, "and") returns the docids carrying every (normalized) query word and search(words, "or") those carrying at least one; an empty query returns no docid; any other operator raises TypeError.','all histories, all queries',HIST,KI+':KeywordIndex.search',KI+':KeywordIndex.index_doc')
p('C12','Keyword statistics are exact','After any such history documentCount() is the number of docids with a non-empty keyword set, wordCount() the number of keywords carried by at least one of them, and has_doc(d) tells whether d is one of them.','all histories',HIST,KI+':KeywordIndex.documentCount',KI+':KeywordIndex.wordCount',KI+':KeywordIndex.has_doc')
p('C13','Keyword unindexing','unindex_doc(d), or index_doc(d, []), removes d from every search answer and changes nothing for other docids, is a no-op if d is not indexed, and never raises; clear() makes the index like new; index_doc with a str raises TypeError and changes nothing.','all reachable states',HIST,KI+':KeywordIndex.unindex_doc',KI+':KeywordIndex.index_doc')
p('C14','Case-insensitive keyword index','A CaseInsensitiveKeywordIndex answers every search the same for two queries, and for two index histories, that differ only in the case of keywords.','all histories and queries that agree up to lower()','all case variants of all keywords',KI+':CaseInsensitiveKeywordIndex.normalize')
p('C15','tree_threshold and optimize are transparent','The value of tree_threshold at any time and calls to optimize() never change any search answer or statistic; after optimize() each keyword is stored in a TreeSet iff it has at least tree_threshold docids.','all histories with threshold changes',HIST,KI+':KeywordIndex.optimize',KI+':KeywordIndex._insert_forward')
p('C16','documentCount stays right for every iterable of keywords','For every iterable passed as seq (not only lists and tuples) and every normalize override, index_doc keeps documentCount() equal to the number of docids that has_doc() accepts, and forward and reverse views in agreement.','all histories whose sequences may be empty but truthy (iterators) or be normalized to nothing','needs an iterable that is truthy but yields nothing',KI+':KeywordIndex.index_doc',KI+':KeywordIndex._insert_reverse')
p('C17','Keyword apply and search agree','apply(q) equals search(q, "and") for a non-dict q, and search(d["query"], d.get("operator", "and")) for a dict d; apply never modifies the dict, so repeating it gives the same answer.','all states and queries',HIST,KI+':KeywordIndex.apply')
p('C18','Search results are snapshots','The set returned by a KeywordIndex or TopicIndex search does not change when the index is modified later, and modifying it does not change the index.','all states, queries and later histories','aliasing shows only for particular query shapes followed by particular updates',KI+':KeywordIndex.search',TI+':TopicIndex.search')
# ---- topic
p('C19','Filter contents after any history','After any history, a topic filter given by a Python expression holds docid d iff some index_doc(d, obj) with a matching obj happened since the filter was created, and neither unindex_doc(d) nor a clear of the filter happened after it.','all histories, all expressions',HIST,TF+':PythonFilteredSet.index_doc',TF+':FilteredSetBase.unindex_doc')
p('C20','Reindexing a document in a topic index','index_doc is also the way to reindex (IInjection): after index_doc(d, obj), a filter holds d iff obj matches the filter now.','all histories','needs an object that stops matching',TF+':PythonFilteredSet.index_doc',IF+':IInjection.index_doc')
p('C21','Topic and/or search is exact','search(ids, "or") returns the union and search(ids, "and") the intersection of the docid sets of those filters in ids that are registered; unregistered ids are ignored; if none is registered the answer is empty; other operators, and queries that are not str/list/tuple, raise TypeError.','all states and queries',HIST,TI+':TopicIndex.search')
p('C22','Applying a topic query twice gives the same answer','TopicIndex.apply(q) does not modify q, so applying the same query object again to an unchanged index returns the same answer.','all states, all query objects','needs the same dict object to be reused',TI+':TopicIndex.apply')
p('C23','Filter errors are contained','If evaluating the Python expression of a filter raises, that filter treats the document as non-matching, no exception escapes index_doc, and every other filter is updated as if the failing one did not exist.','all sets of filters and evaluation outcomes','all combinations of failing filters',TF+':PythonFilteredSet.index_doc',TI+':TopicIndex.index_doc')
p('C24','Topic index changes survive commit and reload','After any sequence of calls followed by a transaction commit, a freshly loaded index answers like the one that was committed.','all histories of calls and commits','depends on which objects the persistence machinery is told about',TI+':TopicIndex.clearFilters',TF+':FilteredSetBase.clear',TF+':FilteredSetBase.setExpression')
# ---- nbest
p('C25','NBest keeps exactly the N best','After adding any sequence of (item, score) pairs to NBest(N), getbest() is the first N of that sequence sorted by decreasing score, earlier additions first among equal scores.','all N >= 1, all sequences, any totally ordered scores','all sequences with all tie patterns',NB+':NBest.addmany',NB+':NBest.getbest')
p('C26','NBest size, capacity and pop','Under any history of add, addmany and pop_smallest: len never exceeds capacity(); pop_smallest returns a pair of minimal score among those held and removes exactly it, IndexError when empty; addmany equals repeated add; while capacity is never exceeded nothing is lost (priority-queue behaviour); N < 1 raises ValueError.','all histories',HIST,NB+':NBest')
p('C27','NBest comparison cost','One add makes at most 1 + floor(log2 N) + 1 score comparisons; the bound is attained for every N, and a refused pair takes exactly one.','all N, contents and scores','a worst case over all inputs',NB+':NBest.addmany')
# ---- setops
p('C28','Weighted union of many maps','mass_weightedUnion(L) maps exactly the keys present in some map of L, each to the sum over the maps holding it of weight*value (exact arithmetic); the key set is right for any arithmetic whatsoever, floats included. It never raises.','all lists of (map, weight)','all list lengths, sizes and overlaps; the merge order depends on sizes',SO+':mass_weightedUnion',SO+':_trivial')
p('C29','Weighted intersection of many maps','mass_weightedIntersection(L), ignoring None maps, maps exactly the keys present in every map of L (none if L is empty) to the sum of weight*value; the key set is right for any arithmetic.','all lists of (map or None, weight)','as C28',SO+':mass_weightedIntersection')
p('C30','Mass set operations do not depend on input order','Permuting the input list changes neither the keys nor (exact arithmetic) the scores of mass_weightedUnion and mass_weightedIntersection.','all lists and permutations','all permutations',SO)
# ---- widcode
p('C31','Widcode round trip','decode(encode(wids)) == wids for every list of word ids in [0, 2**28); a larger id makes encode raise AssertionError.','all lists, all ids','the test samples every 1117th id and single-element lists only',WC+':encode',WC+':decode')
p('C32','Widcode is self-synchronizing','encode(a + b) == encode(a) + encode(b); encode is injective; an occurrence of encode(wids) (wids non-empty) inside encode(doc) always starts at the boundary of an encoded word id.','all lists','all pairs of lists',WC+':encode')
p('C33','Encoded search finds exactly the phrases','encode(doc).find(encode(wids)) >= 0 iff wids occurs as a contiguous run in doc.','all lists of word ids','needs word ids on both sides of a 7-bit boundary',WC+':encode',BI+':BaseIndex.search_phrase')
# ---- rice
p('C34','Rice code round trip','For m in 1..16 and every list of integers >= 1, appending them to RiceCode(m) and calling tolist() returns the list, len() its length; a value < 1 raises ValueError and changes nothing; encode(m, l) never fails its internal assertion.','all m in 1..16, all lists','all lists and widths',RC+':RiceCode.append',RC+':RiceCode.tolist',RC+':encode')
p('C35','Every documented Rice parameter works','RiceCode(m) can be constructed for every m in 0..16 and raises ValueError otherwise.','all integers m','m = 0 is the untested boundary',RC+':RiceCode.__init__',RC+':RiceCode.init')
p('C36','Delta coding round trip','decode_deltas(*encode_deltas(l)) == l for every strictly increasing list l of integers with at least one element.','all strictly increasing lists','the only test uses consecutive ranges, on which all deltas are equal',RC+':encode_deltas',RC+':decode_deltas')
p('C37','Rice codes survive pickling','Pickling and unpickling a RiceCode preserves tolist() and len().','all Rice codes','all contents',RC+':RiceCode.__getstate__',RC+':RiceCode.__setstate__')
p('C38','BitArray is a list of bits','After appending any bits, len is their number, item i reads back the i-th bit, assigning item i changes only that bit, and pickling preserves the content.','all bit sequences and positions','all byte alignments',RC+':BitArray')
# ---- lexicon
p('C39','Word ids are a stable bijection','After any history of sourceToWordIds calls: every word seen has exactly one word id, different words have different ids, no id is 0, get_word(get_wid(w)) == w, and ids once assigned never change.','all histories, all pipelines',HIST,LX+':Lexicon._getWordIdCreate',LX+':Lexicon._new_wid')
p('C40','Word id allocation is safe for any counter value','Even if the persistent word counter is replaced by an arbitrary value between calls (it is deliberately reloaded from the database), a new word never gets the id of another word, nor 0 (for a non-negative counter), and allocation terminates.','all schedules of counter values','schedules of concurrent transactions',LX+':Lexicon._new_wid',LX+':Lexicon.sourceToWordIds')
p('C41','Lexicon word count','wordCount() equals the number of distinct words ever passed to sourceToWordIds after the pipeline.','all histories',HIST,LX+':Lexicon.wordCount')
p('C42','Source and term lookup agree','After sourceToWordIds(t) returned ids (for a text t, not None), termToWordIds(t) returns the same ids, then and after any later history; termToWordIds returns 0 for each unknown word and never changes the lexicon.','all texts, pipelines, histories',HIST,LX+':Lexicon.termToWordIds',LX+':Lexicon.sourceToWordIds')
p('C43','Glob lookup is exact','globToWordIds(p), for a pattern that does not start with a glob character, returns the ids of exactly the known words matching p with * = any run and ? = any character; a pattern without glob characters returns the id of that word or nothing; a pattern starting with a glob character raises QueryError.','all lexicons and patterns','all patterns',LX+':Lexicon.globToWordIds')
p('C44','Splitters return the maximal word runs','Splitter.process returns exactly the maximal runs of word characters of the texts, in order; processGlob returns for glob-free text the same; splitting an already split word gives it back.','all texts, all word-character classes','all texts',LX+':Splitter')
p('C45','HTML splitter ignores markup','HTMLWordSplitter.process lower-cases the text and returns the words outside <...> tags and &name; entities: words inside them never show, words outside them always do. processGlob does the same with words that may contain * and ? after the first word character, and agrees with process on texts without these.','all texts','all texts',HS+':HTMLWordSplitter')
# ---- parser
p('C46','Query parsing is total','parseQuery terminates on every string and either returns a tree or raises ParseError; it never runs past its token list.','all strings, all lexicons','all token sequences',QP+':QueryParser.parseQuery')
p('C47','The parser implements its grammar','parseQuery succeeds exactly on the token sequences of the grammar OrExpr = AndExpr (OR AndExpr)*, AndExpr = Term (AND NotExpr | NOT Term)*, NotExpr = [NOT] Term, Term = ( OrExpr ) | ATOM+ whose ATOM runs have a positive word unless all are ignored and whose overall meaning is not only stop words; and the tree is the one the derivation denotes.','all token sequences','all token sequences',QP)
p('C48','Parsed queries never fail on NOT','In every tree parseQuery returns, the root is not NOT, NOT occurs only as a non-first child of an AND (positive children come first), is never nested directly, and AND/OR have at least two children; so executing a parsed query never raises the NOT QueryError.','all strings, lexicons and indexes','all trees',QP,PT+':NotNode.executeQuery')
p('C49','Ignored terms are reported exactly','getIgnored() after parseQuery lists, in order, exactly the atoms whose parseTerms result is empty; if all atoms are ignored the query is rejected with ParseError.','all strings','all strings',QP+':QueryParser._parseAtom',TIF+':IQueryParser')
p('C50','Tokenizer covers the query','The tokens are disjoint pieces of the query in order, what lies between them is only white space or unbalanced double quotes, a quoted string is one token and keywords are recognized in any case only when they stand alone.','all strings','all strings',QP+':_tokenizer_regex')
# ---- text index core
p('C51','The inverted index is exact','After any history of index_doc, unindex_doc, clear: has_doc(d) iff d is currently indexed, get_words(d) is the word-id sequence of its text, and each (word, doc) weight stored is the weight computed from the current text; no call raises an internal KeyError.','all histories, any weighting',HIST,BI+':BaseIndex.index_doc',BI+':BaseIndex._reindex_doc',BI+':BaseIndex.unindex_doc')
p('C52','Text index statistics are exact','documentCount() is the number of indexed docids, wordCount() the number of distinct words occurring in currently indexed documents.','all histories; at most 2^28 - 1 word ids, as widcode can hold',HIST,BI+':BaseIndex.documentCount',BI+':BaseIndex.wordCount')
p('C53','Reindexing equals unindexing and indexing','Reindexing a document leaves the index exactly as unindexing it first and indexing it again; with a fixed lexicon the index content (up to the single precision of stored weights), and all answers including scores, depend only on the current docid -> text assignment.','all reachable states; at most 2^28 - 1 word ids, as widcode can hold, and for OkapiIndex documents of at most 2^24 words',HIST,BI+':BaseIndex._reindex_doc')
p('C54','Okapi total document length','In an OkapiIndex that is never cleared, the total document length used for scoring equals the sum of the lengths of the currently indexed documents, provided documents have at most 2**24 words (single precision storage).','all histories without clear; at most 2^28 - 1 word ids, as widcode can hold',HIST,OK+':OkapiIndex._change_doc_len',OK+':OkapiIndex._reindex_doc')
p('C55','clear makes a text index like new','After clear(), an OkapiIndex or CosineIndex behaves as a new index on the same lexicon.','all histories','scores after clear depend on the history before it',BI+':BaseIndex.clear',OK+':OkapiIndex.__init__')
p('C56','Term search is exact','search(term) returns None iff the lexicon maps the term to no word at all; otherwise the docids returned are exactly the currently indexed documents containing at least one of its words.','all histories and terms; at most 2^28 - 1 word ids, as widcode can hold, and for OkapiIndex documents of at most 2^24 words',HIST,BI+':BaseIndex.search')
p('C57','Boolean query evaluation is exact','Executing a parse tree whose leaves are not ignored returns exactly the docids for which the boolean formula holds (AND = all positive parts and none of the negated, OR = at least one), with ignored parts skipped; the index is not changed.','all trees, all indexes; at most 2^28 - 1 word ids, as widcode can hold, and for OkapiIndex documents of at most 2^24 words, and, for queries with patterns (* and ?), patterns and words as the splitters of the package make them (no newline in a word, no regular expression metacharacter but . before the first * or ?; see C43 and C59 for others)','all trees',PT+':AndNode.executeQuery',PT+':OrNode.executeQuery')
p('C58','Phrase search is exact','search_phrase(words) returns exactly the documents whose word sequence contains the phrase contiguously.','all histories and phrases','needs a vocabulary of more than 128 words',BI+':BaseIndex.search_phrase')
p('C59','Glob search is exact','search_glob(p) returns exactly the documents containing a word that matches p.','all histories and patterns',HIST,BI+':BaseIndex.search_glob')
p('C60','Searching never fails arithmetically','In every reachable state, for every pipeline and every query text, TextIndex.apply on an Okapi or cosine index answers with positive scores (exact arithmetic), or raises ParseError, or the QueryError or re.error of a glob pattern: never ZeroDivisionError, a math domain error or anything else.','all histories and queries; at most 2^28 - 1 word ids, as widcode can hold, and for OkapiIndex documents of at most 2^24 words','all histories, including empty documents and clear',OK+':OkapiIndex._python_search_wids',CO+':CosineIndex._search_wids')
p('C61','Okapi query_weight bounds the scores','For every query, every document score is at most query_weight(terms of the query) (exact arithmetic).','all histories and queries','numeric bound over all states',OK+':OkapiIndex.query_weight',TIF+':IExtendedQuerying.query_weight')
p('C62','Cosine query_weight bounds the scores','As C61 for CosineIndex: the quotient is a cosine, at most 1.','all histories and queries','numeric bound over all states',CO+':CosineIndex.query_weight',TIF+':IExtendedQuerying.query_weight')
p('C63','Okapi term weight laws','TF(D,t) strictly increases with f(D,t), strictly decreases with len(D), lies strictly between 0 and k1+1; IDF is positive and decreases with the number of documents holding the term.','all frequencies, lengths, counts','real-valued laws',OK+':OkapiIndex._python_search_wids',BI+':inverse_doc_frequency')
p('C64','C and Python scoring loops agree','In every state an OkapiIndex can get into, the score loop in C and the one in Python return the same buckets (or raise the same exception), so that all queries have the same results with either.','all histories, all lists of word ids; at most 2^28 - 1 word ids, as widcode can hold, and for OkapiIndex documents of at most 2^24 words','all inputs',OC+':score',OK+':OkapiIndex._python_search_wids')
p('C65','Indexed words are found','With the default pipeline, if a currently indexed text contains a word that is not a stop word, then apply of that word, in any case, returns the document; and it returns no document without such a word.','all texts, words and histories','all texts and alphabets; the query word is normalized twice',TX+':TextIndex.apply',LX+':Splitter',LX+':CaseNormalizer',LX+':StopWordRemover')
p('C66','Searching does not change the index','TextIndex.apply and all index searches leave the index unchanged although apply rescales the returned mapping in place.','all states and queries','the aliasing case depends on a numeric coincidence',TX+':TextIndex.apply',SO+':_trivial',CO+':CosineIndex._search_wids')
p('C67','Normalized scores','TextIndex.apply on an Okapi index returns scores in (0, 1] for glob-free queries (exact arithmetic), and the same docids as executing the parsed query.','all histories and queries; at most 2^28 - 1 word ids, as widcode can hold, and for OkapiIndex documents of at most 2^24 words, and, for queries with patterns (* and ?), patterns and words as the splitters of the package make them (no newline in a word, no regular expression metacharacter but . before the first * or ?; see C43 and C59 for others)','numeric bound over all states',TX+':TextIndex.apply')
p('C68','Calls that fail change nothing','If index_doc raises because the docid is not one the index accepts, the index answers afterwards, whatever follows, as if the call had not been made.','all histories, all positions of failing calls','needs failing calls mixed into histories',FI+':FieldIndex.index_doc',KI+':KeywordIndex.index_doc',BI+':BaseIndex.index_doc')
p('C69','Scores are those of the documented formulas','Executing a parsed query gives every matching document the sum, over the words of the matching non-negated parts, of the BM25 weight (OkapiIndex: term frequency weight with the mean document length of the current documents times inverse document frequency) or of the normalized cosine weight (CosineIndex), computed from the texts currently indexed (exact arithmetic).','all histories without clear, all queries; at most 2^28 - 1 word ids, as widcode can hold, and for OkapiIndex documents of at most 2^24 words, and, for queries with patterns (* and ?), patterns and words as the splitters of the package make them (no newline in a word, no regular expression metacharacter but . before the first * or ?; see C43 and C59 for others)','all histories; scores depend on every document',OK+':OkapiIndex._python_search_wids',CO+':CosineIndex._search_wids',CO+':CosineIndex._get_frequencies',SO+':mass_weightedUnion')
p('C70','Concurrent transactions merge correctly','Transactions that index and unindex documents, each working on the state that was the latest one when it began, commit in any order and overlap in any way. Whenever the database accepts a commit, no docid was changed both by it and by others since it began, and the committed index is exactly an index used by one thread holding, for every docid, the value of the transaction that changed it; word ids handed out by a lexicon stay unique and valid. A transaction that no other committed transaction overlapped has no conflicts.','all schedules: any number of transactions, any snapshots, any calls, any refusals by the database','all interleavings of commits; the sets are merged object by object',FI+':FieldIndex.index_doc',FI+':FieldIndex.unindex_doc',KI+':KeywordIndex._insert_forward',KI+':KeywordIndex.unindex_doc',LX+':Lexicon._new_wid',BI+':BaseIndex._add_wordinfo',BI+':BaseIndex._del_wordinfo')
p('C71','Objects stored by older releases keep working','A text index stored by an older release (without wordCount and documentCount counters, with a plain number as total length) or a lexicon without counter answers queries and counts as one made by this release would, and all further calls leave it as they would leave that one.','all histories before and after, all combinations of missing counters','the missing counters are rebuilt in six places, each at another point of an update',BI+':BaseIndex._add_wordinfo',BI+':BaseIndex._mass_add_wordinfo',BI+':BaseIndex._del_wordinfo',BI+':BaseIndex.index_doc',BI+':BaseIndex.unindex_doc',OK+':OkapiIndex._change_doc_len',LX+':Lexicon.sourceToWordIds')
p('C72','Committed changes of a text index are stored completely','A program uses a text index and its lexicon through a database connection that writes at a commit only what is marked as changed, and that may drop unmarked objects and load them again at any time. After any calls, commits and aborts, what the program sees is an index on which the committed calls and the pending ones were made, and what the database holds (after a crash or restart) is an index on which exactly the committed calls were made.','all sequences of calls, commits, aborts and cache evictions, all crash points, all pipelines and scorings; at most 2^28 - 1 word ids, as widcode can hold, and for OkapiIndex documents of at most 2^24 words','one dict changed without being assigned again is lost only when its bucket happens to be unmarked and is loaded again later',BI+':BaseIndex._add_wordinfo',BI+':BaseIndex._mass_add_wordinfo',BI+':BaseIndex._del_wordinfo',BI+':BaseIndex.index_doc',BI+':BaseIndex.unindex_doc',BI+':BaseIndex.clear',OK+':OkapiIndex._change_doc_len',LX+':Lexicon.sourceToWordIds',LX+':Lexicon._new_wid')
p('C73','Sharing a lexicon changes no answer','Two text indexes to whose docids the same texts are currently assigned give the same answers (statistics, words of documents, searches for words, globs, query weights, queries, all with their scores), whatever calls led there and whatever the ids of the words in their lexicons are; so an index whose lexicon is also filled by other indexes answers like one with a lexicon of its own.','all pairs of histories, all calls of other users of the lexicon in between, all queries, all pipelines, both scorings','the other users of the lexicon can add any words at any time; a difference may need more than a hundred words',BI+':BaseIndex.index_doc',BI+':BaseIndex.search',BI+':BaseIndex.search_phrase',BI+':BaseIndex.search_glob',BI+':BaseIndex._remove_oov_wids',LX+':Lexicon.sourceToWordIds',LX+':Lexicon.globToWordIds',OK+':OkapiIndex._get_frequencies',CO+':CosineIndex._get_frequencies',TX+':TextIndex.apply')
p('C74','Scores in floating point stay close to the documented formulas','With every arithmetic operation rounded (relative error at most u, at most 1/64; in double precision with weights stored in single precision u = 2^-24), a query and TextIndex.apply return exactly the documents that match, never raise, and every score agrees with the exact formula (BM25 sum or cosine weight, divided by the weight of the query in apply) up to a factor (1/(1-u))^n, where n is a number of roundings that depends on the query (and for CosineIndex on the number of different words of the document) only, not on the number of documents or of words in the index; so documents whose exact scores differ by more are listed in the right order.','all rounded arithmetics, all histories, all queries, all pipelines, both scorings; at most 2^28 - 1 word ids, as widcode can hold, and for OkapiIndex documents of at most 2^24 words, and, for queries with patterns (* and ?), patterns and words as the splitters of the package make them (no newline in a word, no regular expression metacharacter but . before the first * or ?; see C43 and C59 for others)','rounding errors of any direction in every operation; all histories and queries',OK+':OkapiIndex._python_search_wids',OK+':OkapiIndex.query_weight',CO+':CosineIndex._search_wids',CO+':CosineIndex._get_frequencies',CO+':CosineIndex.query_weight',SO+':mass_weightedUnion',SO+':mass_weightedIntersection',BI+':inverse_doc_frequency',TX+':TextIndex.apply')
p('C75','HTML documents are found by the words outside markup','With the pipeline HTMLWordSplitter, CaseNormalizer, StopWordRemover, apply of a word (whose lower case consists of word characters, is its own lower case and is no stop word) returns exactly the documents whose current text contains this word, in any case, outside <...> tags and &name; entities.','all texts, words and histories','all texts, markup and histories; splitter, lexicon, parser and index together',HS+':HTMLWordSplitter',TX+':TextIndex.apply',LX+':Lexicon.parseTerms')
p('C76','Queries can be combined','If apply accepts the texts q1 and q2, in each of which the double quotes are paired, it accepts (q1) OR (q2), (q1) AND (q2) and (q1) AND NOT (q2), and finds the documents that one of them finds, that both find, and that q1 finds and q2 does not find; a part for which apply returns None is left out of an AND.','all pairs of query texts, all histories; at most 2^28 - 1 word ids, as widcode can hold, and for OkapiIndex documents of at most 2^24 words, and, for queries with patterns (* and ?), patterns and words as the splitters of the package make them (no newline in a word, no regular expression metacharacter but . before the first * or ?; see C43 and C59 for others)','all query texts; tokenizer, parser and evaluation together','src/zope/index/text/queryparser.py:QueryParser.parseQuery',TX+':TextIndex.apply')
p('C77','Better documents rank higher','With OkapiIndex, if apply finds document e for a query, and document d has no more words than e, has every word asked for at least as often, matches every phrase asked for that e matches, and matches no excluded part that e does not match, then apply finds d too, with at least the same score, and with a higher score if d has fewer words; NBest(N) then lists such a shorter d before e.','all queries, all histories, all pairs of documents, exact arithmetic; at most 2^28 - 1 word ids, as widcode can hold, and for OkapiIndex documents of at most 2^24 words, and, for queries with patterns (* and ?), patterns and words as the splitters of the package make them (no newline in a word, no regular expression metacharacter but . before the first * or ?; see C43 and C59 for others)','all queries, corpora and pairs of documents; the score is a sum over parts of the query, each with its own statistics',OK+':OkapiIndex._search_wids',TX+':TextIndex.apply','src/zope/index/nbest.py:NBest')
p('C78','Concurrent transactions on a topic index','Filters are registered; then transactions index and unindex documents, each working on the state that was the latest one when it began, commit in any order and overlap in any way. Whenever the database accepts a commit, no docid was changed both by it and by others since it began, and the filters then hold, for every docid, what the transaction that changed it made them hold, as if the transactions had been run one after the other.','all schedules: any number of transactions, any snapshots, any filters and objects, any refusals by the database','all interleavings of commits; each filter has its own set, resolved on its own',TI+':TopicIndex.index_doc',TI+':TopicIndex.unindex_doc',TF+':FilteredSetBase.unindex_doc',TF+':PythonFilteredSet.index_doc')
p('C79','sort() while the index changes','sort() returns a lazy iterator: calling it does nothing and raises nothing, and if the index does not change after the first next(), it yields what the index held then. If the index changes while the iterator is in use, it yields only docids that were asked for, at most limit of them, each indexed at that moment and none twice; the documents whose value does not change come out in the order of their values, and none of them is missing unless the limit ended the iteration.','all histories, all calls of index_doc, unindex_doc and clear in any places between the calls of next(), all docids, limits, directions and strategies','all interleavings of updates with the steps of an iterator; three strategies holding on to different parts of the state','src/zope/index/field/sorting.py:SortingIndexMixin.sort',FI+':FieldIndex.index_doc',FI+':FieldIndex.clear')
p('C80','clear() in concurrent transactions','Transactions that index and unindex documents or clear the index, each working on the state that was the latest one when it began, commit in any order and overlap in any way. When a transaction that called clear() commits, the index holds exactly the documents it indexed afterwards; a transaction that began before this commit and commits after it leaves none of its documents in the index, as if it had been run before; two overlapping transactions that called clear() do not both commit; in all other cases documents are merged as without clear(). Every committed state is exactly an index used by one thread holding these documents; a text index keeps all words in its lexicon. A transaction that no other committed transaction overlapped has no conflicts.','all schedules: any number of transactions, any snapshots, any calls, any refusals by the database','all interleavings of commits; a transaction may write to containers that are no longer part of the index',FI+':FieldIndex.clear',KI+':KeywordIndex.clear',BI+':BaseIndex.clear',TX+':TextIndex.clear')
p('C81','Scores of combined queries','For (q1) AND (q2) and (q1) OR (q2), the score of a document follows from its scores for q1 and q2 and from the query weights: with OkapiIndex it is their mean weighted with the query weights (0 for a query that does not find the document), so it lies between the two scores if both find it and is lower than the one score if only one does; with CosineIndex the divisor is the root of the sum of the squared weights. (q1) AND NOT (q2) leaves every score of q1 unchanged. Exact arithmetic.','all histories, query texts with paired quotes and documents','all pairs of queries and all collections; scores are sums over nested parts divided by weights computed separately',TX+':TextIndex.apply',PT+':AndNode',PT+':OrNode',PT+':NotNode',OK+':query_weight',CO+':query_weight')
p('C82','Stop words do not matter','With the splitter, the case normalizer and a stop word remover, the words of a text are its lower-case words without the stop words, in order. Histories whose texts differ only in stop words leave the same index. apply of a stop word raises ParseError; joining a stop word to a query with OR, AND or AND NOT does not change the answer. StopWordAndSingleCharRemover also removes every word of a single character.','all texts, histories and queries, any dictionary of stop words','all texts and histories; stop words in any position and case',LX+':StopWordRemover',LX+':StopWordAndSingleCharRemover',QP+':QueryParser',TX+':TextIndex.apply')
p('C83','The length of a query does not exhaust the stack','A query of any length in which at most m parentheses are open at any place is parsed and answered with a number of nested Python calls that depends only on m (four for each open parenthesis and a fixed number): given that many, the outcome is that of an unlimited stack and RecursionError is not raised. In particular one fixed number is enough for all queries without parentheses.','all query texts, all recursion limits, all indexes','queries of unbounded length and nesting',QP+':QueryParser.parseQuery',PT+':AndNode.executeQuery',PT+':OrNode.executeQuery',TX+':TextIndex.apply')
p('C84','A quoted text finds the documents that contain it','A text in double quotes, without double quotes in it, is one term of the query: nothing in it is taken as operator, parenthesis or negation. If a passage of an indexed text begins and ends between words, the query that consists of the passage in double quotes finds the document, and nothing but documents that contain the words of the passage, other than stop words, one after the other; if the passage has no words but stop words, it raises ParseError.','all texts and passages, all histories of the index, all character classes and case mappings with the stated laws','the texts and passages are unbounded',QP+':QueryParser.parseQuery',LX+':Splitter.process',LX+':Lexicon.parseTerms',TX+':TextIndex.apply')
p('C85','The C extension keeps the rules for references and exceptions','Whatever arguments the C scoring function is given, and whatever the operations it performs on them return, it uses no object that may have been freed, gives back every reference it takes exactly once (so searching neither crashes nor leaks), and returns either None with no exception set or an error with an exception set. With the arguments an index passes it stores the score of every document of the word, or raises KeyError for a document without length.','all arguments, all outcomes of all operations of the interpreter (any of them may fail at any time), all numbers of documents','failures of single operations cannot be provoked in tests, and a leak or a use after free has no visible effect',OS+':score',OK+':OkapiIndex._c_search_wids')

p('C86','A query parser can be used again','Whatever queries a query parser object parsed or rejected before, and whatever was done to the lists it handed out, parseQuery returns the tree or raises the ParseError that a new parser would. getIgnored() is None before the first query; afterwards it is a list made for the last query: the ignored terms of that query in order or, if the query was rejected, those before some place in it. parseQueryEx returns the tree of parseQuery and this list. A list that was handed out is never changed by later queries nor handed out again.','all sequences of queries and of changes to the lists handed out, all lexicons','the number of histories of one object is unbounded; tests use a new parser or one that has parsed a few queries',QP+':QueryParser.parseQuery',QP+':QueryParser.getIgnored',QP+':QueryParser.parseQueryEx')
p('C87','Concurrent transactions act as if run one after the other','When several transactions index and unindex documents of a field, keyword or text index, each working on the state that was the latest when it began, then every committed state is the state (for text indexes: answers like the state) of an index used by one thread that executes the calls of the committed transactions, one transaction after the other.','all numbers of transactions, all calls in them, all overlaps, all decisions of the database to refuse a transaction','the interleavings are unbounded and the mixture only shows for particular overlaps',FI+':FieldIndex.index_doc',KI+':KeywordIndex.index_doc',BI+':BaseIndex.index_doc')
p('C88','Order, grouping and repetition in queries do not matter','If two queries differ only in the order of the operands of AND and OR and in brackets around operands of the same operator, anywhere in the query, then apply returns the same documents with the same scores for both (brackets in an AND: provided they hold an operand that is neither negated nor ignored). `(q) OR (q)` and `(q) AND (q)` return the documents and scores of `q`. Scores in exact arithmetic; with rounding the documents are the same and the scores agree up to the rounding errors.','all queries, however nested, all histories of an index with OkapiIndex or CosineIndex ; at most 2^28 - 1 word ids, as widcode can hold, and, for queries with patterns (* and ?), patterns and words as the splitters of the package make them (no newline in a word, no regular expression metacharacter but . before the first * or ?; see C43 and C59 for others)','the queries are unbounded trees and the histories unbounded sequences',QP+':QueryParser._parseOrExpr',PT+':AndNode.executeQuery',PT+':OrNode.executeQuery',TX+':TextIndex.apply')
p('C89','Documents do not influence whether others are found','Whatever is indexed, reindexed or unindexed for other documents, with or without exceptions, and however the lexicon is used, no query to a field, keyword, topic or text index begins or ceases to find a document (only its score may change), and a text query that is not understood stays so.','all histories, all further calls that do not name the document and are not clear() or changes of topic filters, all queries; text indexes: at most 2^28 - 1 word ids, as widcode can hold, and for OkapiIndex documents of at most 2^24 words, and, for queries with patterns (* and ?), patterns and words as the splitters of the package make them (no newline in a word, no regular expression metacharacter but . before the first * or ?; see C43 and C59 for others)','all histories and continuations; shared containers and word ids connect the documents',FI+':FieldIndex.index_doc',KI+':KeywordIndex.index_doc',KI+':KeywordIndex.unindex_doc',TI+':TopicIndex.index_doc',BI+':BaseIndex.index_doc',BI+':BaseIndex.unindex_doc')
p('C90','Ways to write the same query','White space of any kind and amount between, before and after the parts of a query, the case of keywords, brackets around a whole query, doubled brackets anywhere in it, AND between terms that could stand side by side, and AND NOT or NOT instead of a hyphen before a term (if the lexicon finds the same words in the term with and without it) do not change what parseQuery returns or raises and what apply answers, scores included. (Outside double quotes.)','all query texts with paired double quotes before the place in question, all lexicons, all states of all indexes','unbounded texts; tokenizer and parser together',QP+':QueryParser.parseQuery',QP+':QueryParser._parseTerm',QP+':QueryParser._parseAndExpr',TX+':TextIndex.apply')
p('C91','Docids are only names','If the same calls are made with other docids, different documents having different new docids, every range, keyword, topic and text query returns the new docids of the documents it returned before, with the same text scores, or raises the same exception, and the counts are the same. Sorting yields the new docids in the same order if the new docids are in the same order as the old ones (documents with equal values are ordered by docid).','all histories, all injective (for sorting: increasing) maps of docids, all queries, pipelines and limits','unbounded histories and all renamings; scores depend on all documents',FI+':FieldIndex.apply',FS+':SortingIndexMixin.sort',KI+':KeywordIndex.search',TI+':TopicIndex.search',TX+':TextIndex.apply')
p('C92','Committed changes of field and keyword indexes are stored completely','A program uses a field or keyword index in a ZODB database. After every commit the database holds an index on which exactly the committed calls were made, and the program, whatever the cache of its connection drops and loads again, sees an index on which the committed calls and those since the last commit or abort were made; calls that raised an exception count unless the transaction is aborted.','all sequences of calls (clear(), optimize() and changes of tree_threshold included), commits, aborts and reloads of any unchanged objects; all placements of keys in buckets','a change that is not noticed is only lost when the object happens to be dropped from the cache, or after a restart',FI+':FieldIndex.index_doc',FI+':FieldIndex.unindex_doc',FI+':FieldIndex.clear',KI+':KeywordIndex.index_doc',KI+':KeywordIndex.unindex_doc',KI+':KeywordIndex.optimize')
p('C93','Indexes changed in the same transactions stay in step','A program keeps a field index and a text index in one database, and each transaction gives documents a value and a text, or removes them from both. However the transactions overlap, in every committed state each document is in both indexes or in neither, both count the same number of documents, each index answers like one used by one thread, and the value and the text of a document were given by the same call.','all numbers of transactions, all calls in them, all overlaps, all decisions of the database to refuse a transaction; all pipelines, both scorings; for OkapiIndex documents of at most 2^24 words','the interleavings are unbounded, and every index is merged on its own',FI+':FieldIndex.index_doc',FI+':FieldIndex.unindex_doc',TX+':TextIndex.index_doc',TX+':TextIndex.unindex_doc',BI+':BaseIndex.index_doc')
p('C94','Values, keywords and words are only compared','Values are only compared: replacing the values and the bounds of queries by others in the same order changes no range query, count or sort. Keywords and words are only compared for equality: replacing different keywords or words by different ones, in the documents and in the queries, changes no answer, count or score; so a last pipeline element that encrypts the words, say, changes no search.','all histories, all replacements, all range queries, limits and sorting strategies, all keyword queries, all words, phrases and parsed queries without patterns, all pipelines, both scorings in every arithmetic','the replacements are infinitely many, and so are the histories',FI+':FieldIndex.apply',FS+':SortingIndexMixin.sort',KI+':KeywordIndex.search',LX+':Lexicon.sourceToWordIds',LX+':Lexicon.termToWordIds',BI+':BaseIndex.search',BI+':BaseIndex.search_phrase',BI+':BaseIndex.query_weight')
p('C95','The laws of logic hold for queries','Query texts joined by OR, AND and AND NOT, every part in parentheses and nested however deeply, are accepted if the parts are, and find the documents for which the formula is true. So equivalent formulas find the same documents (distributivity, De Morgan, absorption and so on), a further condition finds no other documents and a further alternative loses none.','all formulas of all query texts with paired double quotes that are answered with documents, all histories of the index, all pipelines, both scorings','formulas and query texts are infinitely many, and parser, tree and set operations all take part',QP+':QueryParser.parseQuery',PT+':OrNode.executeQuery',PT+':AndNode.executeQuery',PT+':NotNode',TX+':TextIndex.apply',SO+':mass_weightedUnion',SO+':mass_weightedIntersection')
p('C96','A text the pipeline rejects changes nothing','If index_doc raises because the pipeline does not accept the text (a number, a byte string, an element that raises), then the exception reaches the caller and the index and its lexicon are as if the call had not been made: all later calls behave the same.','all histories of calls some of which are rejected, at any place, for new and for indexed docids; all pipelines; both index classes','what such a call leaves behind shows only in later calls, which are infinitely many',BI+':BaseIndex.index_doc',BI+':BaseIndex._reindex_doc',OK+':OkapiIndex._reindex_doc',OK+':OkapiIndex._change_doc_len',LX+':Lexicon.sourceToWordIds')
p('C97','Scores of one-word queries are given by the document','For a query of one word, apply gives each document that has the word a score that is a function of its own text and, with OkapiIndex, of the mean document length: how many other documents there are and how many of them have the word does not matter. With CosineIndex a document has the same score in any two indexes.','all one-word queries, all histories of the index, all pipelines, both index classes','scores of infinitely many indexes are compared',TX+':TextIndex.apply',OK+':OkapiIndex.query_weight',CO+':CosineIndex.query_weight',CO+':CosineIndex._search_wids',OK+':OkapiIndex._search_wids')
p('C98','Patterns find what they stand for','With the default pipeline, apply of a pattern as users type it (a word character, then word characters, * and ?) finds exactly the documents whose text has a word, other than a stop word, whose lower case matches the lower case of the pattern, each * standing for any number of characters and each ? for one. In particular a document is found by the beginning of any of its words followed by *, and a longer beginning finds no other documents than a shorter one.','all patterns, all histories of the index, all documents, both index classes','patterns, texts and histories are unbounded; parser, pipeline, lexicon and index must agree on every one of them',TX+':TextIndex.apply',LX+':Lexicon.globToWordIds',LX+':Splitter.processGlob',QP+':QueryParser._parseAtom',BI+':BaseIndex.search_glob')
p('C99','Search in one index, sort by another or by score','sort() of a field index, given the result of a text query, a keyword search or a range query of any index over the same docids, yields exactly the documents that match and have a value in the field index, in order of value and docid, and with a limit the first of them, whichever strategy is used. An NBest(N) fed with the items of the result of a text query holds the N matching documents with the highest scores (all if they are fewer) in decreasing order of score, the smaller docid first among equal ones.','all histories of both indexes, all queries, limits and N, all strategies','two histories, a query and a limit vary independently',SO+':SortingIndexMixin.sort',TX+':TextIndex.apply',KI+':KeywordIndex.search',FI+':FieldIndex.apply',NB+':NBest.addmany')
with open(os.path.join(os.path.dirname(__file__),'..','properties.jsonl'),'w') as f:
    for x in P: f.write(json.dumps(x)+'\n')
print(len(P))
