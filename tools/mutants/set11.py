# wrong programs for C81 (scores of combined queries), C82 (stop words), and two missed earlier
M = []
PT = "Model/ParseTree.lean"
TI = "Model/TextIndex.lean"
LX = "Model/Lexicon.lean"


def m(name, file, definition, old, new, edit, claim, **k):
    M.append(dict(name=name, file=file, definition=definition, old=old, new=new, edit=edit, claim=claim, **k))


m("cs-not-terms", PT, "Node.terms", "  | .not _ => []\n  | .and l => termsAll l", "  | .not n => n.terms\n  | .and l => termsAll l",
  "the words of negated parts count in the query weight", "C81: AND NOT leaves the scores of the first query as they are")
m("cs-first-term", PT, "Node.termsAll", "  | n :: rest => n.terms ++ termsAll rest", "  | n :: _ => n.terms",
  "only the first part of a combined query counts in the query weight", "C81: the weight of a combined query is the sum of the weights")
m("cs-union-weight", PT, "Node.execute", "let set ← massUnion A (w.map (fun x => (x, A.one)))\n    return some set", "let set ← massUnion A (w.map (fun x => (x, A.add A.one A.one)))\n    return some set",
  "OR adds its parts with weight 2", "C81: the score for OR is the weighted mean")
m("cs-inter-weight", PT, "Node.execute", "massIntersection A (r.1.map (fun x => (some x, A.one)))", "massIntersection A (r.1.map (fun x => (some x, A.add A.one A.one)))",
  "AND adds its parts with weight 2", "C81: the score for AND is the weighted mean")
m("cs-qw-tfmax", TI, "okapiQueryWeight", "(A.add A.one P.k1)) A.zero", "P.k1) A.zero",
  "query_weight uses k1 instead of 1 + k1", "C81: no score exceeds the larger of the two")
m("cs-qw-start", TI, "okapiQueryWeight", "(A.add A.one P.k1)) A.zero", "(A.add A.one P.k1)) A.one",
  "query_weight starts with 1", "C81: the weight of a combined query is the sum of the weights")
m("cs-qw-nosqrt", TI, "cosineQueryWeight", "A.zero\n  pySqrt A sum", "A.zero\n  return sum",
  "the cosine query weight is not square-rooted", "C81: the weight of a combined query is the Euclidean sum of the weights")
m("cs-unscaled", TI, "applyTree", "let qw := if K.arith.isZero qw then K.arith.one else qw", "let qw := K.arith.one",
  "scores are not divided by the query weight", "C81: the score for OR is the weighted mean")
m("sw-inverted", LX, "stopWordRemover", "l.filter (fun w => !stop w)", "l.filter (fun w => stop w)",
  "only stop words are kept", "C82: the words of a text are those that are not stop words")
m("sw-first", LX, "stopWordRemover", "l.filter (fun w => !stop w)", "l.dropWhile (fun w => stop w)",
  "only leading stop words are removed", "C82: the words of a text are those that are not stop words")
m("sw-glob", LX, "stopWordRemover", "processGlob := none }\n\n/-- text/stopdict.py:27", "processGlob := some id }\n\n/-- text/stopdict.py:27",
  "queries keep their stop words", "C82: a stop word combined with a query changes nothing")
m("sw-single-256", LX, "isStopOrSingle", "c.toNat < 255", "c.toNat < 128",
  "only ASCII characters are removed", "C82: single characters below 255 are removed")
m("sw-single-only", LX, "isStopOrSingle", "  isStop w || (match w with", "  (match w with",
  "the stop words themselves are kept", "C82: stop words are removed")
