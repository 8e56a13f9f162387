# wrong programs for C78 (transactions on topic indexes) and C79 (sort() while the index changes)
M = []
SG = "Model/SortGen.lean"
TT = "Model/TxnTopic.lean"


def m(name, file, definition, old, new, edit, claim, **k):
    M.append(dict(name=name, file=file, definition=definition, old=old, new=new, edit=edit, claim=claim, **k))


m("sg-scan-noskip", SG, "nextScan", "if rev.contains d then (.value d, .scan rest limit (n + 1) old) else nextScan rev limit n old rest",
  "(.value d, .scan rest limit (n + 1) old)",
  "the scan yields docids without looking whether they are indexed", "C79: only indexed docids")
m("sg-scan-stop", SG, "nextScan", "else nextScan rev limit n old rest", "else (.stop, .done)",
  "the scan stops at the first docid that is not indexed", "C79: none is missing")
m("sg-scan-count", SG, "nextScan", ".scan rest limit (n + 1) old) else", ".scan rest limit n old) else",
  "the scan does not count what it yields", "C79: at most limit")
m("sg-scan-order", SG, "beginSort", "nextScan s.rev limit 0 none (ids.keys.insertionSort (fun x y => keyLe getValue a.reverse x y))",
  "nextScan s.rev limit 0 none ids.keys", "the full list is not sorted", "C79: order of values")
m("sg-reached", SG, "reached", "decide (n ≥ k)", "decide (n > k)", "limit compared with >", "C79: at most limit")
m("sg-reached-none", SG, "reached", "| none => false", "| none => true", "no limit ends the iteration at once", "C79: none is missing")
m("sg-walk-key", SG, "next", "decide (key < v)", "decide (key ≤ v)", "the walk goes through the last key again", "C79: none twice")
m("sg-walk-rest", SG, "next", "(.value d, .walk docids rest key limit (n + 1) dirty old)", "(.value d, .walk docids [] key limit (n + 1) dirty old)",
  "the walk drops the rest of an intersection", "C79: none is missing")
m("sg-walk-limit", SG, "next", "  | .walk docids rest key limit n dirty old =>\n    if reached limit n then (.stop, .done)\n    else\n",
  "  | .walk docids rest key limit n dirty old =>\n", "the walk ignores the limit", "C79: at most limit")
m("sg-walk-all", SG, "nextWalk", "(SSet.inter docids ((fwd.get? v).getD SMap.empty)).keys", "((fwd.get? v).getD SMap.empty : SSet D).keys",
  "the walk does not intersect with docids", "C79: only docids asked for")
m("sg-wild-all", SG, "nextWild", "(SSet.inter docids stored).keys", "stored.keys",
  "no intersection after the keys changed", "C79: only docids asked for")
m("sg-eager-limit", SG, "next", "if n < 1 then (.raised .ValueError, .done)", "if n < 0 then (.raised .ValueError, .done)",
  "limit 0 is accepted", "C79: what is yielded is what sort() yields")
m("sg-nbest-skip", SG, "nextValue", "| d :: rest => (.value d, .values rest)", "| d :: rest => (.value d, .values rest.tail)",
  "the n-best loop skips every second value", "C79: none is missing")
m("sg-lazy-reverse", SG, "beginSort", "(chooseLazy ids.len s.numDocs || a.useLazy) && !a.reverse", "(chooseLazy ids.len s.numDocs || a.useLazy)",
  "the walk is also used for reverse", "C79: order of values")
m("sg-start-clear", SG, "Gen.onCall", "  | .scan rest limit n none =>\n    match op with\n    | .clear => .scan rest limit n (some s.rev)\n    | _ => .scan rest limit n none\n",
  "  | .scan rest limit n none =>\n    match op with\n    | .clear => .done\n    | _ => .scan rest limit n none\n",
  "clear() ends the generator: changes C79_fails, a repair", "C79_fails (a repair must refute the negative theorem)")
m("sg-onunindex", SG, "Gen.onCall", "    | .clear => .scan rest limit n (some s.rev)\n    | _ => .scan rest limit n none\n",
  "    | .clear => .scan rest limit n (some s.rev)\n    | _ => .scan rest limit n (some s.rev)\n",
  "the scan keeps looking at the index of its first step", "C79: only indexed docids")
m("sg-values-now", SG, "beginSort", "if s.numDocs = 0 then (.stop, .done)", "if s.numDocs ≤ 1 then (.stop, .done)",
  "an index with one document counts as empty", "C79: what sort() yields")
m("tt-nomerge", TT, "merge", "let heap ← mergeHeap mergeDocSet o.heap c.heap n.heap", "let heap := n.heap",
  "the last commit wins", "C78: changes of others are kept")
m("tt-oldwins", TT, "merge", "let heap ← mergeHeap mergeDocSet o.heap c.heap n.heap", "let heap := c.heap",
  "a commit that meets a conflict changes nothing", "C78: the commit is in the index")
m("tt-fails", TT, "engine", "fails _ s ops := raises eval s ops", "fails _ _ _ := false",
  "a transaction whose call raised is committed", "C78: serial equivalence")
m("tt-fails-first", TT, "raises", "(step eval s op).2.isSome || raises eval (step eval s op).1 ops", "(step eval s op).2.isSome && raises eval (step eval s op).1 ops",
  "an exception aborts only if every call raises", "C78: a transaction that raises changes nothing", tightened=["C78_abort"])
m("tt-swap", TT, "merge", "mergeHeap mergeDocSet o.heap c.heap n.heap", "mergeHeap mergeDocSet c.heap o.heap n.heap",
  "old and committed state swapped", "C78: changes of others are kept")
