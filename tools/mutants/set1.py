"""Wrong programs: n-best, set operations, codings, field, keyword and topic indexes."""
M = []


def m(name, file, definition, old, new, edit, claim, **kw):
    M.append(dict(name=name, file=file, definition=definition, old=old, new=new, edit=edit, claim=claim, **kw))


NB, SO, WC, RC = "Model/NBest.lean", "Model/SetOps.lean", "Model/WidCode.lean", "Model/RiceCode.lean"
FI, KW, TO, KH, TH = ("Model/Field.lean", "Model/Keyword.lean", "Model/Topic.lean", "Model/KeywordHeap.lean",
                      "Model/TopicHeap.lean")

# n-best
m("nbest-bisect-right", NB, "bisectLoop", "if y < x then", "if y ≤ x then", "bisect_right instead of bisect_left",
  "C25: among equal scores the earlier addition comes first")
m("nbest-skip-lt", NB, "NBest.loopStep", "decide (p.2 ≤ s0)", "decide (p.2 < s0)",
  "skip only scores strictly below the smallest one kept", "C25: among equal scores the earlier addition is kept")
m("nbest-full-off-by-one", NB, "NBest.loopStep", "if st.n ≥ capacity then", "if st.n > capacity then",
  "the early skip is tested one element too late", "C25: N best kept (equal scores displace earlier ones)")
m("nbest-no-reverse", NB, "NBest.getbest", "(List.zip b.items b.scores).reverse", "(List.zip b.items b.scores)",
  "getbest forgets to reverse", "C25: decreasing score order")
m("nbest-n-zero", NB, "NBest.new", "if N < 1 then", "if N < 0 then", "capacity 0 accepted", "C26: N < 1 raises ValueError")
m("nbest-pop-end", NB, "NBest.popSmallest", "| i :: is => .ok ((i, s), { b with scores := ss, items := is })",
  "| i :: is => .ok ((i, s), { b with scores := ss, items := i :: is })",
  "pop_smallest forgets to remove the item", "C26: pop_smallest removes exactly the pair returned")
m("nbest-linear", NB, "bisectLoop", "let mid := (lo + hi) / 2", "let mid := lo",
  "linear instead of binary search", "C27: logarithmic number of comparisons")

# set operations
m("wunion-drop-y", SO, "SetOps.wUnionVal", "| none, some b => some (A.mul b wy)", "| none, some _ => none",
  "keys only in the second map are dropped", "C28: keys of some map")
m("trivial-no-weight", SO, "SetOps.trivialOp", "if !A.isOne weight then", "if A.isOne weight then",
  "weight test negated in _trivial", "C28: value is weight*value")
m("inter-weight-one", SO, "SetOps.interStep", "wInter A result p.1 A.one p.2", "wInter A result p.1 p.2 A.one",
  "weights swapped in the intersection loop", "C29: sum of weight*value")
m("union-keep-weight", SO, "SetOps.unionLoop", "merge.add (z, A.one) z.len", "merge.add (z, xw.1.2) z.len",
  "the merged map is pushed with the weight of its first part", "C28: sum of weight*value")
m("inter-none-empty", SO, "SetOps.dropNone", "L.filterMap (fun p => p.1.map (fun x => (x, p.2)))",
  "L.map (fun p => (p.1.getD SMap.empty, p.2))", "None treated as an empty map", "C29: None maps are ignored")
m("union-capacity", SO, "SetOps.massUnion", "NBest.new (L.length : Int)", "NBest.new ((L.length : Int) - 1)",
  "queue capacity one too small", "C28: keys of some map")
m("union-swap-weights", SO, "SetOps.unionLoop", "wUnion A xw.1.1 yw.1.1 xw.1.2 yw.1.2", "wUnion A xw.1.1 yw.1.1 yw.1.2 xw.1.2",
  "weights swapped in weightedUnion", "C28: sum of weight*value; C30: order independence")

# widcode
m("wid-threshold", WC, "WidCode.encodeOne", "if w < 0x4000 then", "if w ≤ 0x4000 then",
  "table bound off by one", "C31: round trip")
m("wid-max", WC, "WidCode.encodeBig", "0x4000 ≤ w ∧ w < 0x10000000", "0x4000 ≤ w ∧ w ≤ 0x10000000",
  "2**28 passes the first assertion (the second one still rejects it)", "C31: ids of 2**28 and more raise",
  note="equivalent program: the inner assertion a' < 0x80 raises the same AssertionError")
m("wid-shift", WC, "WidCode.decodeBig", "(a &&& 0x7F) <<< 21", "(a &&& 0x7F) <<< 20", "wrong shift in 4-byte decoding", "C31: round trip")
m("wid-nohead", WC, "WidCode.encTab", "[i / 0x80 + 0x80, i % 0x80]", "[i / 0x80, i % 0x80 + 0x80]",
  "high bit on the last byte instead of the first", "C31: round trip; C32: self-synchronizing")
m("wid-decode-zero", WC, "WidCode.decodeBig", "if s = [0x80] then .ok 0", "if s = [0x81] then .ok 0",
  "id 0 not decodable", "C31: round trip")

# rice code
m("rice-mask-order", RC, "Rice.RiceCode.initWith", "mask := 1 <<< k", "mask := 1 <<< (k + 1)",
  "the highest of the m binary digits is one too high", "C34: round trip")
m("rice-no-minus-one", RC, "Rice.RiceCode.code", "let val := val - 1", "let val := val", "value not decremented", "C34: round trip")
m("rice-len", RC, "Rice.RiceCode.append", "len := c.len + 1", "len := c.len", "length not counted", "C34: len and tolist")
m("rice-accept-zero", RC, "Rice.RiceCode.append", "if val < 1 then", "if val < 0 then", "0 accepted", "C34: a value < 1 raises ValueError")
m("bit-clear", RC, "Rice.BitArray.setitem", "b &&& (255 ^^^ mask)", "b ^^^ mask", "clearing a bit toggles it",
  "C38: assigning item i sets that bit")
m("bit-left", RC, "Rice.BitArray.append", "bitsleft := a.bitsleft - 1", "bitsleft := a.bitsleft - 2", "two bits counted as used",
  "C38: items read back")
m("delta-last", RC, "Rice.decodeDeltas", "deltas.drop 1", "deltas", "the first delta added twice", "C36: delta round trip")
m("rice-m-17", RC, "Rice.RiceCode.new", "m > 16", "m > 17", "m = 17 accepted", "C35: m outside 0..16 raises ValueError")
m("rice-pickle-len", RC, "Rice.RiceCode.setstate", "initWith s.1 (BitArray.setstate s.2)",
  "(initWith s.1 (BitArray.setstate s.2)).map (fun c => { c with len := s.2.1 })",
  "unpickling takes the number of bits as length", "C37: pickling preserves len (what it preserves exactly)")

# field index
m("field-no-delete-empty", FI, "Field.unindexDoc", "if set.isEmpty then fwd.del v else fwd", "fwd",
  "an empty set stays in the forward map", "C02: wordCount")
m("field-no-unindex-on-reindex", FI, "Field.indexDoc", "insertDoc (s.unindexDoc d) d v", "insertDoc s d v",
  "reindexing does not remove the old value", "C01: range query exact")
m("field-unindex-count", FI, "Field.unindexDoc", "numDocs := s.numDocs - 1", "numDocs := s.numDocs",
  "unindex does not decrement the count", "C02: documentCount")
m("field-uptodate", FI, "Field.indexDoc", "if s.upToDate d v then s", "if s.fwd.contains v then s",
  "a reindexed document is skipped when its new value exists at all", "C01: range query exact")
m("field-new-always", FI, "Field.insertDoc", "| some set => set\n  { fwd", "| some _ => (SMap.empty : SSet D)\n  { fwd",
  "a fresh set replaces the set of the value", "C01: range query exact")
m("field-clear-count", FI, "Field.clear", "def clear (_s : Field D V) : Field D V := new", "def clear (s : Field D V) : Field D V := { (new : Field D V) with numDocs := s.numDocs }",
  "clear keeps the document count", "C02: documentCount; C03: clear")
m("field-swap-bounds", FI, "Field.apply", "s.fwd.range lo hi", "s.fwd.range hi lo", "bounds swapped", "C01: lo <= v <= hi")
m("field-unindex-all", FI, "Field.unindexDoc", "let set := SMap.del set d\n", "let set := (SMap.empty : SSet D)\n",
  "unindexing drops the whole value", "C03: nothing about other docids changes")
m("sort-emit", FI, "Field.emit", "if n ≥ k then [d]", "if n > k then [d]", "one result too many", "C05: first n; C06: first n")
m("sort-bisect-left", FI, "Field.nsmallStep", "if le then return result", "if !le then return result",
  "test negated in the inlined nsmallest", "C05: n smallest")
m("sort-pop-front", FI, "Field.nsmallStep", "return result.dropLast", "return result.drop 1", "smallest instead of largest dropped",
  "C05: n smallest")
m("sort-lazy-reverse", FI, "Field.sortWith", "else if useLazy && !reverse then", "else if useLazy then",
  "lazy strategy taken also for descending order", "C06: descending order")
m("sort-limit-zero", FI, "Field.sort", "if n < 1 then", "if n < 0 then", "limit 0 accepted", "C05: limit below 1 raises (statement of C05/C06)")
m("sort-keep-missing", FI, "Field.sortWith", "(sorted.filter (fun d => s.rev.contains d))", "sorted", "unindexed docids not filtered",
  "C05: only indexed docids; C08: skipped")
m("sort-nlargest-asc", FI, "Field.pyNLargest", "tle b a", "tle a b", "n smallest for descending order", "C06: n largest")

# keyword index
m("kw-no-remove", KW, "Keyword.indexDoc", "let r := removeWords s.fwd d removed.keys\n        if r.2", "let r := removeWords s.fwd d []\n        if r.2",
  "removed keywords stay in the forward index", "C11: search exact")
m("kw-count-reindex", KW, "Keyword.indexDoc", "rev := insertReverse s.rev d newKw }, none)", "rev := insertReverse s.rev d newKw, numDocs := s.numDocs + 1 }, none)",
  "reindexing counts the document again", "C12: documentCount")
m("kw-empty-noop", KW, "Keyword.indexDoc", "else (s.unindexDoc d, none)", "else (s, none)", "index_doc(d, []) does nothing", "C13: index_doc(d, []) unindexes")
m("kw-diff-swapped", KW, "Keyword.indexDoc", "let added := SSet.diff newKw oldKw", "let added := SSet.diff oldKw newKw",
  "added computed the wrong way round", "C11: search exact")
m("kw-optimize-drop", KW, "Keyword.optimizeSet", "if set.isTree then { isTree := false, ids := set.ids } else set", "if set.isTree then { isTree := false, ids := SMap.empty } else set",
  "conversion back to a Set loses the docids", "C15: optimize transparent")
m("kw-threshold-gt", KW, "Keyword.optimizeSet", "if (set.ids.len : Int) ≥ threshold then", "if (set.ids.len : Int) > threshold then",
  "threshold compared with >", "C15: TreeSet iff at least tree_threshold docids")
m("kw-insert-threshold", KW, "Keyword.insertWord", "fwd.set w { isTree := true, ids := set.ids }", "fwd.set w { isTree := true, ids := SMap.empty }",
  "conversion to a TreeSet loses the docids", "C11: search exact; C15: threshold transparent")
m("kw-and-as-or", KW, "Keyword.interLoop", "| some x => SSet.inter x set", "| some x => SSet.multiunion [x, set]", "union in the and loop", "C11: and search")
m("kw-search-nonorm", KW, "Keyword.search", "let query := normalize query\n  let sets", "let sets",
  "query not normalized", "C14: case-insensitive query; C11: normalized query word")
m("kw-apply-default-or", KW, "Keyword.apply", "| none => .and\n", "| none => .or\n", "default operator or", "C17: default operator is and")
m("kw-clear-rev", KW, "Keyword.clear", "{ s with fwd := SMap.empty, rev := SMap.empty, numDocs := 0 }", "{ s with fwd := SMap.empty, numDocs := 0 }",
  "clear keeps the reverse map", "C12: has_doc; C13: clear makes the index like new")
m("kw-unindex-rev", KW, "Keyword.unindexDoc", "rev := s.rev.del d, numDocs", "rev := s.rev, numDocs", "unindex keeps the reverse entry", "C12: has_doc; C13: unindex")
m("kw-str", KW, "Keyword.indexDoc", "| .str => (s, some .TypeError)", "| .str => (s.unindexDoc d, some .TypeError)", "a str unindexes before raising",
  "C13: a str raises TypeError and changes nothing")
m("kw-empty-and", KW, "Keyword.search.finish", "| none => .ok SMap.empty", "| none => .error .TypeError", "empty and query raises", "C11: an empty query returns the empty set")
m("kw-bad-operator", KW, "Keyword.search", "| .other => .error .TypeError\nwhere", "| .other => finish (some (SSet.multiunion sets))\nwhere", "unknown operator treated as or",
  "C11: another operator raises TypeError")

# topic index
m("topic-unindex-some", TO, "Topic.unindexDoc", "f.unindexDoc d) }", "if f.kind = .python then f.unindexDoc d else f) }",
  "base filters keep unindexed docids", "C19: filter contents (a filter of the base class holding docids)",
  note="base filters hold docids only when added with them")
m("topic-error-true", TO, "Filter.indexDoc", "| .error _ => (f, none) ", "| .error _ => ({ f with ids := SSet.insert f.ids d }, none) ",
  "a failing expression counts as a match", "C23: treated as non-matching; C19: contents")
m("topic-error-stops", TO, "Filter.indexDoc", "| .error _ => (f, none) ", "| .error _ => (f, some .ValueError) ",
  "the exception of an expression escapes", "C23: no exception escapes")
m("topic-reindex-removes", TO, "Filter.indexDoc", "| .ok false => (f, none)", "| .ok false => ({ f with ids := SMap.del f.ids d }, none)",
  "a non-matching document is removed (the fix of C20)", "C19: contents as documented; C20: the refutation must fail")
m("topic-search-missing", TO, "Topic.search.searchList", "decide (p.1 ∈ query)", "decide (p.1 ∉ query)", "membership negated", "C21: filters in ids")
m("topic-search-other", TO, "Topic.search", "| .other => .error .TypeError\nwhere", "| .other => .ok SMap.empty\nwhere", "bad query returns nothing instead of raising", "C21: raises TypeError")
m("topic-apply-keep", TO, "Topic.apply", "let a := ApplyArg.dict query none\n", "", "apply does not pop (the fix of C22)", "C22: the refutation must fail")
m("topic-clearfilters", TO, "Topic.clearFilters", "s.filters.mapVals (fun _ f => f.clear)", "s.filters", "clearFilters does nothing", "C19: contents")
m("topic-del-missing", TO, "Topic.delFilter", "else (s, some .KeyError)", "else (clear s, some .KeyError)", "deleting an unknown filter clears all", "C19: contents")

# objects
m("kwheap-shared-empty", KH, "HKeyword.insertWord", "{ s with heap := s.heap.alloc { isTree := true, ids := set.ids }, fwd := s.fwd.set w s.heap.next }\n  else s",
  "{ s with heap := s.heap.put r.2 { isTree := true, ids := set.ids } }\n  else s", "conversion in place instead of a new object",
  "C18: nothing user-visible changes (equivalent for contents)", note="expected: refinement proofs need repair, claim not falsified")
m("kwheap-inter-inplace", KH, "Heap.interLoop", "let h' := h.alloc { isTree := false, ids := ids }\n      if ids.isEmpty then (h', some h.next) else interLoop h' (some h.next) rest",
  "let h' := h.put x { isTree := false, ids := ids }\n      if ids.isEmpty then (h', some x) else interLoop h' (some x) rest",
  "intersection computed in place, in the set object of the first word", "C18: snapshot of a several-word and search")
m("kwheap-or-first", KH, "Heap.combine", "let f := finish (h.alloc { isTree := false, ids := ids }) (some h.next)",
  "let f := if sets.length = 1 then finish h sets.head? else finish (h.alloc { isTree := false, ids := ids }) (some h.next)",
  "or search of one word returns the stored set itself", "C18: or results are snapshots")
m("topicdb-index-touch", TH, "TopicDb.touches", "| .clear => fun _ => true", "| .clear => fun _ => true\n  | .clearFilters => fun _ => true\n  | .setExpression i _ => fun j => decide (j = i)",
  "changes inside a filter mark the bucket (the fix of C24)", "C24: the refutation must fail")
m("topicdb-no-touch-add", TH, "TopicDb.touches", "| .addFilter i _ => fun j => decide (j = i)", "| .addFilter _ _ => fun _ => false",
  "addFilter does not mark the bucket", "C24: partial theorem (histories without clearFilters/setExpression survive)")
